import Verif.Store.Seq

/-! Invariants of running effects. -/

namespace Verif.Store

open Verif.Future (M Op Ev Frame Task Fn Inv Le Out Comes Fulfils upd)

variable {A Mo : Type}

/-! ### What a call still has to do -/

/-- The leaves that a call has still to do. -/
def Mode.rem : Mode → List (Option Nat)
  | .call e => e.leaves
  | .prim id => [some id]
  | .got _ => []

/-- The leaves that a running effect has still to do. -/
def EF.rem (f : EF) : List (Option Nat) := f.mode.rem ++ f.ks.flatMap Eff.leaves

/-- The part of the effect that a call is for. -/
def Kbound (tag : Nat → Option (Nat × Nat × Eff)) (d x : Nat) (e : Eff) (lo stop : Nat) : Kont → Prop
  | .store d' _ => d' = d ∧ lo = 0 ∧ stop = e.len
  | .clo t => ∃ b, tag t = some (x, lo, b) ∧ stop = lo + b.len

/-- Of the proof: what is known about a call, depending on its mode. -/
def ModeOK (fu : M) (tag : Nat → Option (Nat × Nat × Eff)) (log : List (SEv A Mo)) (x : Nat) (e : Eff)
    (lo pos : Nat) : Mode → Prop
  | .call e' => e'.good ∧ lo ≤ pos ∧ Comp fu log x e pos
  | .prim id => lo ≤ pos ∧ Comp fu log x e pos ∧ SEv.prim x pos id ∈ log
  | .got none => lo < pos ∧ Comp fu log x e pos
  | .got (some i) => lo < pos ∧ ∃ r, fu.futs[i]? = some r ∧ Path fu tag log x e (lo + 1) pos r

/-- Of the proof: what is known about a running effect. -/
def FrOK (fu : M) (tag : Nat → Option (Nat × Nat × Eff)) (log : List (SEv A Mo)) (f : EF) : Prop :=
  ∃ d e lo stop, SEv.effStart d f.x e ∈ log ∧ Kbound tag d f.x e lo stop f.k ∧ Slice e f.pos f.rem ∧
    f.pos + f.rem.length = stop ∧ (∀ b ∈ f.ks, b.good) ∧ ModeOK fu tag log f.x e lo f.pos f.mode

theorem ModeOK.mono {fu fu' : M} {tag tag' : Nat → Option (Nat × Nat × Eff)} {log log' : List (SEv A Mo)}
    {x : Nat} {e : Eff} {lo pos : Nat} {m : Mode} (h : ModeOK fu tag log x e lo pos m) (l : Le fu fu')
    (ht : ∀ c v, tag c = some v → tag' c = some v) (hl : ∀ e, e ∈ log → e ∈ log')
    (hf : ∀ i, m = .got (some i) → fu'.futs[i]? = fu.futs[i]?) :
    ModeOK fu' tag' log' x e lo pos m := by
  cases m with
  | call e' => exact ⟨h.1, h.2.1, h.2.2.mono l hl⟩
  | prim id => exact ⟨h.1, h.2.1.mono l hl, hl _ h.2.2⟩
  | got o =>
    cases o with
    | none => exact ⟨h.1, Comp.mono h.2 l hl⟩
    | some i =>
      obtain ⟨h1, r, h2, h3⟩ := h
      exact ⟨h1, r, by rw [hf i rfl]; exact h2, h3.mono l ht hl⟩

theorem FrOK.mono {fu fu' : M} {tag tag' : Nat → Option (Nat × Nat × Eff)} {log log' : List (SEv A Mo)}
    {f : EF} (h : FrOK fu tag log f) (l : Le fu fu')
    (ht : ∀ c v, tag c = some v → tag' c = some v) (hl : ∀ e, e ∈ log → e ∈ log')
    (hf : ∀ i, f.mode = .got (some i) → fu'.futs[i]? = fu.futs[i]?) : FrOK fu' tag' log' f := by
  obtain ⟨d, e, lo, stop, h1, h2, h3, h4, h5, h6⟩ := h
  refine ⟨d, e, lo, stop, hl _ h1, ?_, h3, h4, h5, h6.mono l ht hl hf⟩
  cases hk : f.k with
  | store d' i => rw [hk] at h2; exact h2
  | clo t =>
    rw [hk] at h2
    obtain ⟨b, h7, h8⟩ := h2
    exact ⟨b, ht _ _ h7, h8⟩

/-! ### Counting -/

/-- How many leaves there are. -/
def ksLen (ks : List Eff) : Nat := (ks.flatMap Eff.leaves).length

theorem ksLen_nil : ksLen [] = 0 := rfl

theorem ksLen_cons (b : Eff) (ks : List Eff) : ksLen (b :: ks) = b.len + ksLen ks := by
  simp [ksLen, Eff.leaves_length]

/-- The positions for which user code has not been called. -/
def EF.first (f : EF) : Nat :=
  match f.mode with
  | .prim _ => f.pos + 1
  | _ => f.pos

/-- The position after the last one that a running effect has to do. -/
def EF.last (f : EF) : Nat :=
  match f.mode with
  | .call e => f.pos + (e.len + ksLen f.ks)
  | .prim _ => f.pos + 1 + ksLen f.ks
  | .got _ => f.pos + ksLen f.ks

/-- Of the proof: is position `q` of call `x` among those of running effect `f`? -/
def cov (f : EF) (x q : Nat) : Nat := if f.x = x ∧ f.first ≤ q ∧ q < f.last then 1 else 0

/-- Of the proof: in how many running effects it is. -/
def ec : List EF → Nat → Nat → Nat
  | [], _, _ => 0
  | f :: fs, x, q => cov f x q + ec fs x q

theorem ec_erase {ev : List EF} {n : Nat} {f : EF} (h : ev[n]? = some f) (x q : Nat) :
    ec (ev.eraseIdx n) x q + cov f x q = ec ev x q := by
  induction ev generalizing n with
  | nil => simp at h
  | cons g ev ih =>
    cases n with
    | zero => simp at h; subst h; simp [ec]; omega
    | succ n =>
      simp at h
      have := ih h
      simp [ec]
      omega

/-- The positions that a closure is for. -/
def tcov (v : Option (Nat × Nat × Eff)) (x q : Nat) : Nat :=
  match v with
  | some (x', pos, b) => if x' = x ∧ pos ≤ q ∧ q < pos + b.len then 1 else 0
  | none => 0

/-- Of the proof: in how many of the first `n` closures that have not been called it is. -/
def ccN (fu : M) (tag : Nat → Option (Nat × Nat × Eff)) (x q : Nat) : Nat → Nat
  | 0 => 0
  | n + 1 => ccN fu tag x q n + (if Ev.start n ∈ fu.log then 0 else tcov (tag n) x q)

/-- … that have not been called. -/
def cc (fu : M) (tag : Nat → Option (Nat × Nat × Eff)) (x q : Nat) : Nat := ccN fu tag x q fu.nextC

theorem ccN_congr {fu fu' : M} {tag tag' : Nat → Option (Nat × Nat × Eff)} {x q : Nat} {n : Nat}
    (h : ∀ c, c < n → (if Ev.start c ∈ fu.log then 0 else tcov (tag c) x q) =
      (if Ev.start c ∈ fu'.log then 0 else tcov (tag' c) x q)) : ccN fu tag x q n = ccN fu' tag' x q n := by
  induction n with
  | zero => rfl
  | succ n ih =>
    simp only [ccN]
    rw [ih (fun c hc => h c (by omega)), h n (by omega)]

theorem ccN_more {fu : M} {tag : Nat → Option (Nat × Nat × Eff)} {x q : Nat} {n m : Nat} (hnm : n ≤ m)
    (h : ∀ c, n ≤ c → tag c = none) : ccN fu tag x q m = ccN fu tag x q n := by
  induction m with
  | zero => rw [show n = 0 by omega]
  | succ m ih =>
    by_cases e : n = m + 1
    · subst e; rfl
    · simp only [ccN]
      rw [ih (by omega), h m (by omega)]
      simp [tcov]

theorem ccN_start {fu fu' : M} {tag : Nat → Option (Nat × Nat × Eff)} {x q : Nat} {n c : Nat} (hc : c < n)
    (h : ∀ c', c' ≠ c → (Ev.start c' ∈ fu'.log ↔ Ev.start c' ∈ fu.log)) (h1 : Ev.start c ∉ fu.log)
    (h2 : Ev.start c ∈ fu'.log) : ccN fu' tag x q n + tcov (tag c) x q = ccN fu tag x q n := by
  induction n with
  | zero => omega
  | succ n ih =>
    simp only [ccN]
    by_cases e : c = n
    · subst e
      rw [if_pos h2, if_neg h1]
      have : ccN fu' tag x q c = ccN fu tag x q c := by
        apply ccN_congr
        intro c' hc'
        simp only [h c' (by omega)]
      omega
    · have := ih (by omega)
      simp only [h n (fun e' => e e'.symm)]
      omega

theorem ccN_pos {fu : M} {tag : Nat → Option (Nat × Nat × Eff)} {x q : Nat} {n : Nat}
    (h : 0 < ccN fu tag x q n) : ∃ c pos b, c < n ∧ tag c = some (x, pos, b) ∧ Ev.start c ∉ fu.log ∧
      pos ≤ q ∧ q < pos + b.len := by
  induction n with
  | zero => simp [ccN] at h
  | succ n ih =>
    simp only [ccN] at h
    by_cases h1 : 0 < ccN fu tag x q n
    · obtain ⟨c, pos, b, h2, h3⟩ := ih h1
      exact ⟨c, pos, b, by omega, h3⟩
    · by_cases h2 : Ev.start n ∈ fu.log
      · rw [if_pos h2] at h; omega
      · rw [if_neg h2] at h
        have h3 : 0 < tcov (tag n) x q := by omega
        unfold tcov at h3
        split at h3
        · rename_i x' pos b hv
          split at h3
          · rename_i h4
            obtain ⟨rfl, h5, h6⟩ := h4
            exact ⟨n, pos, b, by omega, hv, h2, h5, h6⟩
          · omega
        · omega

/-- Does the leaf at `q` start? -/
def isPrim (x q : Nat) : SEv A Mo → Bool
  | .prim x' q' _ => x' == x && q' == q
  | _ => false

/-- Does the leaf at `q` return? -/
def isRet (x q : Nat) : SEv A Mo → Bool
  | .primRet x' q' _ => x' == x && q' == q
  | _ => false

/-- Is user code at `q` running? -/
def EF.isPrim (x q : Nat) (f : EF) : Bool :=
  match f.mode with
  | .prim _ => f.x == x && f.pos == q
  | _ => false

/-- Of the proof: how often the leaf at `q` has started. -/
def pc (log : List (SEv A Mo)) (x q : Nat) : Nat := log.countP (Verif.Store.isPrim x q)

/-- Of the proof: how often the leaf at `q` has returned. -/
def rc (log : List (SEv A Mo)) (x q : Nat) : Nat := log.countP (isRet x q)

/-- Of the proof: how many running effects are in the leaf at `q`. -/
def fc (ev : List EF) (x q : Nat) : Nat := ev.countP (EF.isPrim x q)

theorem countP_erase {α : Type} {l : List α} {n : Nat} {a : α} (P : α → Bool) (h : l[n]? = some a) :
    (l.eraseIdx n).countP P + (if P a then 1 else 0) = l.countP P := by
  induction l generalizing n with
  | nil => simp at h
  | cons b l ih =>
    cases n with
    | zero => simp at h; subst h; simp [List.countP_cons]
    | succ n =>
      simp at h
      have := ih h
      simp only [List.eraseIdx_cons_succ, List.countP_cons]
      omega

theorem pc_pos {log : List (SEv A Mo)} {x q : Nat} : 0 < pc log x q ↔ ∃ id, SEv.prim x q id ∈ log := by
  unfold pc
  rw [List.countP_pos_iff]
  constructor
  · rintro ⟨e, he, hp⟩
    cases e <;> simp [isPrim] at hp
    obtain ⟨rfl, rfl⟩ := hp
    exact ⟨_, he⟩
  · rintro ⟨id, h⟩
    exact ⟨_, h, by simp [isPrim]⟩

theorem rc_pos {log : List (SEv A Mo)} {x q : Nat} : 0 < rc log x q ↔ ∃ r, SEv.primRet x q r ∈ log := by
  unfold rc
  rw [List.countP_pos_iff]
  constructor
  · rintro ⟨e, he, hp⟩
    cases e <;> simp [isRet] at hp
    obtain ⟨rfl, rfl⟩ := hp
    exact ⟨_, he⟩
  · rintro ⟨r, h⟩
    exact ⟨_, h, by simp [isRet]⟩

/-- Of the proof: how many times the leaf at `q` is, was, or is going to be called. -/
def total (fu : M) (tag : Nat → Option (Nat × Nat × Eff)) (log : List (SEv A Mo)) (ev : List EF)
    (x q : Nat) : Nat := ec ev x q + cc fu tag x q + pc log x q

theorem ran_append (x : Nat) (l r : List (SEv A Mo)) : ran x (l ++ r) = ran x l ++ ran x r := by
  induction l with
  | nil => rfl
  | cons e l ih =>
    cases e <;> simp only [List.cons_append, ran, ih]
    split <;> simp

/-! ### The invariant -/

/-- Of the proof: the invariant. -/
structure SInv (fu : M) (tag : Nat → Option (Nat × Nat × Eff)) (log : List (SEv A Mo)) (nx : Nat)
    (ev : List EF) : Prop where
  tg : Tg fu tag log nx
  fr : ∀ f ∈ ev, FrOK fu tag log f
  excl : ∀ i, ev.countP (fun f => f.mode == .got (some i)) ≤ 1
  one : ∀ x q, total fu tag log ev x q ≤ 1
  full : ∀ d x e q id, SEv.effStart d x e ∈ log → e.leaves[q]? = some (some id) →
    (∀ pos, SEv.primThrew x pos ∉ log) → total fu tag log ev x q = 1
  prims : ∀ x q id, SEv.prim x q id ∈ log →
    ∃ d e, SEv.effStart d x e ∈ log ∧ e.leaves[q]? = some (some id)
  bal : ∀ x q, fc ev x q + rc log x q ≤ pc log x q
  ran : ∀ d x e, SEv.effStart d x e ∈ log → ∃ n, ran x log = (e.leaves.take n).filterMap id ∧
    ∀ q id, e.leaves[q]? = some (some id) → (q < n ↔ SEv.prim x q id ∈ log)
  ended : ∀ d r, SEv.effEnd d r ∈ log → ∃ x e, SEv.effStart d x e ∈ log ∧ Path fu tag log x e 1 e.len r

/-- Events that have nothing to do with effects. -/
def SEv.plain : SEv A Mo → Bool
  | .dispatched _ _ => true
  | .reduced _ _ _ _ _ => true
  | .shown _ => true
  | .ready _ => true
  | .reduceThrew _ _ _ => true
  | .lost _ _ => true
  | _ => false

theorem plain_app {log es : List (SEv A Mo)} (h : ∀ e ∈ es, e.plain = true) :
    (∀ x q, pc (log ++ es) x q = pc log x q) ∧ (∀ x q, rc (log ++ es) x q = rc log x q) ∧
    (∀ x, ran x (log ++ es) = ran x log) ∧ (∀ e, e ∈ log ++ es → e ∈ log ∨ e.plain = true) := by
  refine ⟨?_, ?_, ?_, ?_⟩
  · intro x q
    unfold pc
    have : es.countP (Verif.Store.isPrim x q) = 0 := by
      rw [List.countP_eq_zero]
      intro e he
      have := h e he
      cases e <;> simp_all [SEv.plain, isPrim]
    rw [List.countP_append, this]
    rfl
  · intro x q
    unfold rc
    have : es.countP (Verif.Store.isRet x q) = 0 := by
      rw [List.countP_eq_zero]
      intro e he
      have := h e he
      cases e <;> simp_all [SEv.plain, isRet]
    rw [List.countP_append, this]
    rfl
  · intro x
    rw [ran_append]
    have : ran x es = [] := by
      induction es with
      | nil => rfl
      | cons e es ih =>
        have h1 := h e List.mem_cons_self
        have h2 := ih (fun e he => h e (List.mem_cons_of_mem _ he))
        cases e <;> simp_all [SEv.plain, Verif.Store.ran]
    rw [this]; simp
  · intro e he
    rcases List.mem_append.1 he with h' | h'
    · exact Or.inl h'
    · exact Or.inr (h e h')

theorem tag_none {fu : M} {tag : Nat → Option (Nat × Nat × Eff)} {log : List (SEv A Mo)} {nx : Nat}
    (k : Tg fu tag log nx) (i : Inv fu) {c : Nat} (hc : fu.nextC ≤ c) : tag c = none := by
  cases h : tag c with
  | none => rfl
  | some v =>
    obtain ⟨x, pos, b⟩ := v
    obtain ⟨_, _, s, p, _, h1, _⟩ := k.tags _ _ _ _ h
    have := (i.att _ _ _ _ h1).1
    omega

/-- A step of futures that runs no closure of `sequence` does not change the counts. -/
theorem cc_step {fu fu' : M} {tag : Nat → Option (Nat × Nat × Eff)} {log : List (SEv A Mo)} {nx : Nat}
    (k : Tg fu tag log nx) (i : Inv fu) {op : Op} (o : Out fu op fu')
    (hrun : ∀ l t q, op = .run l → fu.queue l = t :: q → tag t.c = none) (x q : Nat) :
    cc fu' tag x q = cc fu tag x q := by
  unfold cc
  rw [ccN_more (Future.out_len o).2.2 (fun c hc => tag_none k i hc)]
  apply ccN_congr
  intro c hc
  by_cases ht : tag c = none
  · simp [ht, tcov]
  · have : Ev.start c ∈ fu'.log ↔ Ev.start c ∈ fu.log := by
      constructor
      · intro h
        rcases Future.out_start o h with h | ⟨l, t, r, h1, h2, rfl⟩
        · exact h
        · exact absurd (hrun l t r h1 h2) ht
      · exact Future.out_log o
    simp only [this]

/-- A step of futures that runs no closure of `sequence` and does not take the futures that calls hold;
other things may happen at the same time. -/
theorem SInv.step {fu fu' : M} {tag : Nat → Option (Nat × Nat × Eff)} {log log' : List (SEv A Mo)} {nx : Nat}
    {ev : List EF} (k : SInv fu tag log nx ev) (i : Inv fu) {op : Op}
    (h : Future.step fu op = some fu') (hu : fu'.ub = false)
    (hlog : ∃ es, log' = log ++ es ∧ ∀ e ∈ es, e.plain = true)
    (hheld : ∀ f ∈ ev, ∀ j, f.mode = .got (some j) → ¬ op.takes j)
    (hrun : ∀ l t q, op = .run l → fu.queue l = t :: q → tag t.c = none)
    (hret : ∀ n j t s x pos b d e, op = .retF n j → fu.active[n]? = some (.run t) →
      fu.futs[j]? = some s → tag t.c = some (x, pos, b) → SEv.effStart d x e ∈ log →
      Path fu tag log x e (pos + 1) (pos + b.len) s)
    (hraise : ∀ n t x pos b, op = .raise n → fu.active[n]? = some (.run t) →
      tag t.c = some (x, pos, b) → ∃ pos, SEv.primThrew x pos ∈ log) :
    SInv fu' tag log' nx ev := by
  obtain ⟨es, rfl, hes⟩ := hlog
  obtain ⟨p1, p2, p3, p4⟩ := plain_app (log := log) hes
  have hl : ∀ e, e ∈ log → e ∈ log ++ es := fun e he => List.mem_append_left _ he
  have l := Future.step_le i h hu
  have o := Future.step_out h
  have ht : ∀ c v, tag c = some v → tag c = some v := fun _ _ h => h
  have old : ∀ e, e ∈ log ++ es → e.plain = false → e ∈ log := by
    intro e he hp
    rcases p4 e he with h | h
    · exact h
    · rw [hp] at h; cases h
  have htot : ∀ x q, total fu' tag (log ++ es) ev x q = total fu tag log ev x q := by
    intro x q
    unfold total
    rw [p1, cc_step k.tg i o hrun]
  constructor
  · refine k.tg.step i h hu hl (fun d x e he => old _ he rfl) (fun x pos r he => old _ he rfl) hret ?_
    intro n t x pos b h1 h2 h3
    obtain ⟨p, hp⟩ := hraise n t x pos b h1 h2 h3
    exact ⟨p, hl _ hp⟩
  · intro f hf
    refine (k.fr f hf).mono l ht hl ?_
    intro j hj
    obtain ⟨d, e, lo, stop, _, _, _, _, _, h6⟩ := k.fr f hf
    rw [hj] at h6
    obtain ⟨_, r, hr, _⟩ := h6
    exact Future.out_futs o (List.getElem?_eq_some_iff.1 hr).1 (hheld f hf j hj)
  · exact k.excl
  · intro x q; rw [htot]; exact k.one x q
  · intro d x e q id he hq hth
    rw [htot]
    exact k.full d x e q id (old _ he rfl) hq (fun pos hp => hth pos (hl _ hp))
  · intro x q id hp
    obtain ⟨d, e, h1, h2⟩ := k.prims x q id (old _ hp rfl)
    exact ⟨d, e, hl _ h1, h2⟩
  · intro x q
    rw [p1, p2]
    exact k.bal x q
  · intro d x e he
    obtain ⟨n, h1, h2⟩ := k.ran d x e (old _ he rfl)
    refine ⟨n, by rw [p3]; exact h1, ?_⟩
    intro q id hq
    rw [h2 q id hq]
    exact ⟨fun h => hl _ h, fun h => old _ h rfl⟩
  · intro d r he
    obtain ⟨x, e, h1, h2⟩ := k.ended d r (old _ he rfl)
    exact ⟨x, e, hl _ h1, h2.mono l ht hl⟩

/-- Events that have nothing to do with effects. -/
theorem SInv.plain {fu : M} {tag : Nat → Option (Nat × Nat × Eff)} {log es : List (SEv A Mo)} {nx : Nat}
    {ev : List EF} (k : SInv fu tag log nx ev) (hes : ∀ e ∈ es, e.plain = true) :
    SInv fu tag (log ++ es) nx ev := by
  obtain ⟨p1, p2, p3, p4⟩ := plain_app (log := log) hes
  have hl : ∀ e, e ∈ log → e ∈ log ++ es := fun e he => List.mem_append_left _ he
  have l := Le.refl fu
  have ht : ∀ c v, tag c = some v → tag c = some v := fun _ _ h => h
  have old : ∀ e, e ∈ log ++ es → e.plain = false → e ∈ log := by
    intro e he hp
    rcases p4 e he with h | h
    · exact h
    · rw [hp] at h; cases h
  have htot : ∀ x q, total fu tag (log ++ es) ev x q = total fu tag log ev x q := by
    intro x q
    unfold total
    rw [p1]
  constructor
  · refine k.tg.say hl (Nat.le_refl _) (fun d x e he => Or.inl (old _ he rfl)) ?_
      (fun x pos r he => Or.inl (old _ he rfl))
    intro d d' e e' h1 h2
    exact k.tg.uniq _ _ _ _ _ (old _ h1 rfl) (old _ h2 rfl)
  · intro f hf
    exact (k.fr f hf).mono l ht hl (fun _ _ => rfl)
  · exact k.excl
  · intro x q; rw [htot]; exact k.one x q
  · intro d x e q id he hq hth
    rw [htot]
    exact k.full d x e q id (old _ he rfl) hq (fun pos hp => hth pos (hl _ hp))
  · intro x q id hp
    obtain ⟨d, e, h1, h2⟩ := k.prims x q id (old _ hp rfl)
    exact ⟨d, e, hl _ h1, h2⟩
  · intro x q
    rw [p1, p2]
    exact k.bal x q
  · intro d x e he
    obtain ⟨n, h1, h2⟩ := k.ran d x e (old _ he rfl)
    refine ⟨n, by rw [p3]; exact h1, ?_⟩
    intro q id hq
    rw [h2 q id hq]
    exact ⟨fun h => hl _ h, fun h => old _ h rfl⟩
  · intro d r he
    obtain ⟨x, e, h1, h2⟩ := k.ended d r (old _ he rfl)
    exact ⟨x, e, hl _ h1, h2.mono l ht hl⟩

end Verif.Store
