import Verif.Smart.Shows

/-
Chains of subscripts stand for places.
-/

namespace Verif.Smart

open Verif.Lens (Style)
open Verif.LensMove (Expr Husk husk MLens)

theorem keyLast_app {t a b : Ty} (p : Path t a) (q : Path a b) (hq : q.keys ≠ []) :
    (p.app q).keyLast = q.keyLast := by
  unfold Path.keyLast
  rw [keys_app, List.getLast?_append]
  cases h : q.keys.getLast? with
  | none => exact absurd (List.getLast?_eq_none_iff.mp h) hq
  | some k => rfl

theorem wipe_missing {t a : Ty} (p : Path t a) (v : t.den) (h : find p v = none) : wipe' p v = v := by
  cases hk : p.keyLast with
  | true => exact wipe_key p v hk
  | false =>
    rw [wipe_nokey p v hk]
    unfold emptied
    rw [h]

theorem wipe_app {t a b : Ty} (p : Path t a) (q : Path a b) (hq : q.keys ≠ []) (v : t.den) (w : a.den)
    (h : find p v = some w) : wipe' (p.app q) v = put p v (wipe' q w) := by
  cases hk : q.keyLast with
  | true =>
    rw [wipe_key q w hk, wipe_key _ v ((keyLast_app p q hq).trans hk), put_same p v w h]
  | false =>
    rw [wipe_nokey q w hk, wipe_nokey _ v ((keyLast_app p q hq).trans hk)]
    unfold emptied
    rw [find_app, h]
    show (match find q w with
      | none => v
      | some u => put (p.app q) v (husk u)) = _
    cases find q w with
    | none => exact (put_same p v w h).symm
    | some u =>
      dsimp only
      rw [put_app, h]
      rfl

theorem comp_rset {S A B : Type} (l : MLens S A) (m : MLens A B) (h : l.tempR = true) (v : S) (x : B) :
    (LensMove.comp l m).rset v x = l.rset v (m.rset (l.view v) x) := by
  simp only [LensMove.comp, h, if_true]

theorem comp_tempR {S A B : Type} (l : MLens S A) (m : MLens A B) (h : l.tempR = true)
    (h' : m.tempR = true) : (LensMove.comp l m).tempR = true := by
  simp only [LensMove.comp, h, h', if_true]

/-- After a lens that shows its place as it is. -/
theorem comp_plain {t a c d : Ty} (p : Path t a) (l : MLens t.den a.den) (ht : l.tempR = true)
    (hf : p.fails = false) (hv : ∀ v, find p v = some (l.view v)) (hs : ∀ v x, l.rset v x = put p v x)
    (q : Path a d) (hq : q.keys ≠ []) {m : MLens a.den c.den} (hm : Shows q c m) :
    Shows (p.app q) c (LensMove.comp l m) := by
  have hput : ∀ v x, put (p.app q) v x = put p v (put q (l.view v) x) := by
    intro v x
    rw [put_app, hv v]
  have hfind : ∀ v, find (p.app q) v = find q (l.view v) := by
    intro v
    rw [find_app, hv v]
    rfl
  have hsome : ∀ (m : MLens a.den c.den) (v : t.den) (x : d.den) (y : c.den),
      m.rset (l.view v) y = put q (l.view v) x →
      (LensMove.comp l m).rset v y = put (p.app q) v x := by
    intro m v x y e
    rw [comp_rset l m ht, e, hs, hput]
  have hnone : ∀ (m : MLens a.den c.den) (v : t.den) (y : c.den),
      m.rset (l.view v) y = wipe' q (l.view v) →
      (LensMove.comp l m).rset v y = wipe' (p.app q) v := by
    intro m v y e
    rw [comp_rset l m ht, e, hs, wipe_app p q hq v _ (hv v)]
  cases hm with
  | plain q m ht' hf' hv' hs' =>
    refine .plain _ _ (comp_tempR l m ht ht') (by rw [fails_app, hf, hf']; rfl) ?_ ?_
    · intro v
      rw [hfind, hv']
      rfl
    · intro v x
      rw [comp_rset l m ht, hs', hs, hput]
  | opt q m ht' hf' hv' hs' hn' =>
    refine .opt _ _ (comp_tempR l m ht ht') (by rw [fails_app, hf']; simp) ?_ ?_ ?_
    · intro v
      rw [hfind]
      exact hv' _
    · intro v x
      exact hsome m v _ _ (hs' _ _)
    · intro v
      exact hnone m v _ (hn' _)
  | flat q m ht' hf' hm' hv' hs' hn' =>
    refine .flat _ _ (comp_tempR l m ht ht') (by rw [fails_app, hf']; simp) ((keyLast_app p q hq).trans hm') ?_ ?_ ?_
    · intro v
      rw [hfind]
      exact hv' _
    · intro v x
      exact hsome m v _ _ (hs' _ _)
    · intro v
      exact hnone m v _ (hn' _)

/-- After a lens that shows its place as an optional. -/
theorem comp_opt {t a c d : Ty} (p : Path t a) (l : MLens t.den (Ty.opt a).den) (ht : l.tempR = true)
    (hf : p.fails = true) (hv : ∀ v, l.view v = find p v) (hs : ∀ v x, l.rset v (some x) = put p v x)
    (hn : ∀ v, l.rset v none = wipe' p v)
    (q : Path a d) (hq : q.keys ≠ []) {m : MLens (Ty.opt a).den c.den} (hm : Shows (.inside q) c m) :
    Shows (p.app q) c (LensMove.comp l m) := by
  generalize hq' : Path.inside q = q' at hm
  have hff : (p.app q).fails = true := by rw [fails_app, hf]; rfl
  have hsome : ∀ (m : MLens (Ty.opt a).den c.den) (v : t.den) (x : d.den) (y : c.den),
      m.rset (l.view v) y = put (.inside q) (l.view v) x →
      (LensMove.comp l m).rset v y = put (p.app q) v x := by
    intro m v x y e
    rw [comp_rset l m ht, e, hv v, put_app]
    cases h : find p v with
    | none => exact (hn v).trans (wipe_missing p v h)
    | some w => exact hs v _
  have hnone : ∀ (m : MLens (Ty.opt a).den c.den) (v : t.den) (y : c.den),
      m.rset (l.view v) y = wipe' (.inside q) (l.view v) →
      (LensMove.comp l m).rset v y = wipe' (p.app q) v := by
    intro m v y e
    rw [comp_rset l m ht, e, hv v]
    cases h : find p v with
    | none =>
      rw [wipe_missing (p.app q) v (by rw [find_app, h]; rfl)]
      exact (congrArg (l.rset v) (wipe_none q)).trans ((hn v).trans (wipe_missing p v h))
    | some w =>
      rw [wipe_app p q hq v w h]
      exact (congrArg (l.rset v) (wipe_inside q w)).trans (hs v _)
  have hfind : ∀ v, find (p.app q) v = find (.inside q) (l.view v) := by
    intro v
    rw [find_app, hv v]
    cases find p v <;> rfl
  cases hm with
  | plain _ m ht' hf' hv' hs' =>
    subst hq'
    exact nomatch hf'
  | opt _ m ht' hf' hv' hs' hn' =>
    subst hq'
    refine .opt _ _ (comp_tempR l m ht ht') hff ?_ ?_ ?_
    · intro v
      rw [hfind]
      exact hv' _
    · intro v x
      exact hsome m v x _ (hs' _ _)
    · intro v
      exact hnone m v _ (hn' _)
  | flat _ m ht' hf' hm' hv' hs' hn' =>
    subst hq'
    refine .flat _ _ (comp_tempR l m ht ht') hff ((keyLast_app p q hq).trans hm') ?_ ?_ ?_
    · intro v
      rw [hfind]
      exact hv' _
    · intro v x
      exact hsome m v _ _ (hs' _ _)
    · intro v
      exact hnone m v _ (hn' _)

/-- After a lens whose place is an optional. -/
theorem comp_flat {t a c d : Ty} (p : Path t (.opt a)) (l : MLens t.den (Ty.opt a).den)
    (ht : l.tempR = true) (hf : p.fails = true) (hv : ∀ v, l.view v = (find p v).bind id)
    (hs : ∀ v x, l.rset v (some x) = put p v (some x)) (hn : ∀ v, l.rset v none = wipe' p v)
    (q : Path a d) (hq : q.keys ≠ []) {m : MLens (Ty.opt a).den c.den} (hm : Shows (.inside q) c m) :
    Shows (p.app (.inside q)) c (LensMove.comp l m) := by
  generalize hq' : Path.inside q = q' at hm
  have hff : (p.app (.inside q)).fails = true := by rw [fails_app, hf]; rfl
  have hstay : ∀ v : t.den, find p v = some (none : Option a.den) → l.rset v none = v := by
    intro v h
    rw [hn v]
    cases hk : p.keyLast with
    | true => exact wipe_key p v hk
    | false =>
      rw [wipe_nokey p v hk]
      unfold emptied
      rw [h]
      exact put_same p v _ h
  have hsome : ∀ (m : MLens (Ty.opt a).den c.den) (v : t.den) (x : d.den) (y : c.den),
      m.rset (l.view v) y = put (.inside q) (l.view v) x →
      (LensMove.comp l m).rset v y = put (p.app (.inside q)) v x := by
    intro m v x y e
    rw [comp_rset l m ht, e, hv v, put_app]
    cases h : find p v with
    | none => exact (hn v).trans (wipe_missing p v h)
    | some w =>
      cases (w : Option a.den) with
      | none => exact (hstay v h).trans (put_same p v _ h).symm
      | some u => exact hs v _
  have hnone : ∀ (m : MLens (Ty.opt a).den c.den) (v : t.den) (y : c.den),
      m.rset (l.view v) y = wipe' (.inside q) (l.view v) →
      (LensMove.comp l m).rset v y = wipe' (p.app (.inside q)) v := by
    intro m v y e
    rw [comp_rset l m ht, e, hv v]
    cases h : find p v with
    | none =>
      rw [wipe_missing (p.app (.inside q)) v (by rw [find_app, h]; rfl)]
      exact (congrArg (l.rset v) (wipe_none q)).trans ((hn v).trans (wipe_missing p v h))
    | some w =>
      cases (w : Option a.den) with
      | none =>
        rw [wipe_missing (p.app (.inside q)) v (by rw [find_app, h]; rfl)]
        exact (congrArg (l.rset v) (wipe_none q)).trans (hstay v h)
      | some u =>
        rw [wipe_app p (.inside q) hq v _ h]
        exact (congrArg (l.rset v) (wipe_inside q u)).trans
          ((hs v _).trans (congrArg (put p v) (wipe_inside q u).symm))
  have hfind : ∀ v, find (p.app (.inside q)) v = find (.inside q) (l.view v) := by
    intro v
    rw [find_app, hv v]
    cases find p v <;> rfl
  cases hm with
  | plain _ m ht' hf' hv' hs' =>
    subst hq'
    exact nomatch hf'
  | opt _ m ht' hf' hv' hs' hn' =>
    subst hq'
    refine .opt _ _ (comp_tempR l m ht ht') hff ?_ ?_ ?_
    · intro v
      rw [hfind]
      exact hv' _
    · intro v x
      exact hsome m v x _ (hs' _ _)
    · intro v
      exact hnone m v _ (hn' _)
  | flat _ m ht' hf' hm' hv' hs' hn' =>
    subst hq'
    refine .flat _ _ (comp_tempR l m ht ht') hff ((keyLast_app p (.inside q) hq).trans hm') ?_ ?_ ?_
    · intro v
      rw [hfind]
      exact hv' _
    · intro v x
      exact hsome m v _ _ (hs' _ _)
    · intro v
      exact hnone m v _ (hn' _)

/-- A place in an optional that has a subscript is a place in its content. -/
theorem inside_of {a d : Ty} (q : Path (.opt a) d) (hq : q.keys ≠ []) :
    ∃ q' : Path a d, q = .inside q' := by
  cases q with
  | nil => exact absurd rfl hq
  | inside q' => exact ⟨q', rfl⟩

/-- One more subscript. -/
theorem Shows.comp {t a b c d : Ty} {p : Path t a} {l : MLens t.den b.den} (h : Shows p b l)
    {q : Path b d} (hq : q.keys ≠ []) (hqt : q.tight) {m : MLens b.den c.den} (hm : Shows q c m) :
    ∃ p' : Path t d, p'.keys = p.keys ++ q.keys ∧ p'.tight ∧ Shows p' c (LensMove.comp l m) := by
  cases h with
  | plain p l ht hf hv hs =>
    exact ⟨_, keys_app p q, tight_app p q hq hqt, comp_plain p l ht hf hv hs q hq hm⟩
  | opt p l ht hf hv hs hn =>
    obtain ⟨q', rfl⟩ := inside_of q hq
    exact ⟨_, keys_app p q', tight_app p q' hq hqt.2, comp_opt p l ht hf hv hs hn q' hq hm⟩
  | flat p l ht hf hm1 hv hs hn =>
    obtain ⟨q', rfl⟩ := inside_of q hq
    exact ⟨_, keys_app p _, tight_app p _ hq hqt, comp_flat p l ht hf hv hs hn q' hq hm⟩

theorem chain_from {t : Ty} (ks : List Key) : ∀ (l : Typed t) {a : Ty} (p : Path t a), p.tight →
    Shows p l.part l.lens.move → (∀ k, k ∈ ks → k.plain) → ∀ l', ks.foldlM Typed.sub l = some l' →
    ∃ (a' : Ty) (p' : Path t a'), p'.keys = p.keys ++ ks ∧ p'.tight ∧ Shows p' l'.part l'.lens.move := by
  induction ks with
  | nil =>
    intro l a p ht hs _ l' h
    cases h
    exact ⟨a, p, by simp, ht, hs⟩
  | cons k ks ih =>
    intro l a p ht hs hk l' h
    rw [List.foldlM_cons] at h
    cases hm : smart l.part k with
    | none =>
      simp [Typed.sub, hm] at h
    | some m =>
      have h' : ks.foldlM Typed.sub (⟨m.part, .comp l.lens m.lens⟩ : Typed t) = some l' := by
        simpa [Typed.sub, hm] using h
      obtain ⟨d, q, hq, hqt, hqs⟩ := smart_single (hk k (by simp)) hm
      obtain ⟨p', hp', hpt', hps'⟩ := hs.comp (by rw [hq]; simp) hqt hqs.1
      obtain ⟨a', p2, e1, e2, e3⟩ := ih ⟨m.part, .comp l.lens m.lens⟩ p' hpt' hps'
        (fun k' hk' => hk k' (by simp [hk'])) l' h'
      refine ⟨a', p2, ?_, e2, e3⟩
      rw [e1, hp', hq]
      simp

theorem shows_ident (t : Ty) : Shows (.nil : Path t t) t (LensMove.ident (S := t.den)) :=
  .plain _ _ rfl rfl (fun _ => rfl) (fun _ _ => rfl)

end Verif.Smart
