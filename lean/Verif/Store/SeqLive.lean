import Verif.Store.SeqReach
import Verif.Future.Prom

/-! Calls of effects: what has been called, and that everything is called in the end. -/

namespace Verif.Store

open Verif.Future (M Op Ev Frame Task Fn Inv Le Out upd)

variable {A Mo : Type}

theorem countP_unique {α : Type} {l : List α} {P : α → Bool} (h : l.countP P ≤ 1) {a b : α} (ha : a ∈ l)
    (hb : b ∈ l) (pa : P a = true) (pb : P b = true) : a = b := by
  induction l with
  | nil => cases ha
  | cons c l ih =>
    rw [List.countP_cons] at h
    rcases List.mem_cons.1 ha with rfl | ha'
    · rcases List.mem_cons.1 hb with rfl | hb'
      · rfl
      · have : 0 < l.countP P := List.countP_pos_iff.2 ⟨b, hb', pb⟩
        simp only [pa, if_true] at h
        omega
    · rcases List.mem_cons.1 hb with rfl | hb'
      · have : 0 < l.countP P := List.countP_pos_iff.2 ⟨a, ha', pa⟩
        simp only [pb, if_true] at h
        omega
      · exact ih (by omega) ha' hb'

/-- User code returns once. -/
theorem SInv.ret_unique {fu : M} {tag : Nat → Option (Nat × Nat × Eff)} {log : List (SEv A Mo)} {nx : Nat}
    {ev : List EF} (k : SInv fu tag log nx ev) {x q : Nat} {r r' : Option Nat}
    (h : SEv.primRet x q r ∈ log) (h' : SEv.primRet x q r' ∈ log) : r = r' := by
  have h1 := k.one x q
  have h2 := k.bal x q
  unfold total at h1
  have h3 : rc log x q ≤ 1 := by omega
  have := countP_unique h3 h h' (by simp [isRet]) (by simp [isRet])
  cases this
  rfl

/-- Only user code of the effect is called, in order. -/
theorem SInv.prefix {fu : M} {tag : Nat → Option (Nat × Nat × Eff)} {log : List (SEv A Mo)} {nx : Nat}
    {ev : List EF} (k : SInv fu tag log nx ev) {d x : Nat} {e : Eff} (he : SEv.effStart d x e ∈ log) :
    Verif.Store.ran x log <+: e.acts := by
  obtain ⟨n, h, _⟩ := k.ran d x e he
  rw [h, ← Eff.leaves_acts]
  exact List.IsPrefix.filterMap _ (List.take_prefix ..)

/-- All has been called. -/
theorem SInv.all {fu : M} {tag : Nat → Option (Nat × Nat × Eff)} {log : List (SEv A Mo)} {nx : Nat}
    {ev : List EF} (k : SInv fu tag log nx ev) {d x : Nat} {e : Eff} (he : SEv.effStart d x e ∈ log)
    (h : ∀ q id, e.leaves[q]? = some (some id) → SEv.prim x q id ∈ log) :
    Verif.Store.ran x log = e.acts := by
  obtain ⟨n, h1, h2⟩ := k.ran d x e he
  rw [h1, ← Eff.leaves_acts]
  rcases Nat.lt_or_ge n e.leaves.length with hn | hn
  · have := take_more (l := e.leaves) (Nat.le_of_lt hn) (fun q id hq _ hl => ?_)
    · rw [List.take_length] at this
      exact this.symm
    · have := (h2 q id hl).2 (h q id hl)
      omega
  · rw [List.take_of_length_le hn]

theorem SInv.prim_of_ret {fu : M} {tag : Nat → Option (Nat × Nat × Eff)} {log : List (SEv A Mo)} {nx : Nat}
    {ev : List EF} (k : SInv fu tag log nx ev) {d x : Nat} {e : Eff} (he : SEv.effStart d x e ∈ log)
    {q id : Nat} {r : Option Nat} (hq : e.leaves[q]? = some (some id)) (hr : SEv.primRet x q r ∈ log) :
    SEv.prim x q id ∈ log := by
  have hb := k.bal x q
  have hrc : 0 < rc log x q := rc_pos.2 ⟨r, hr⟩
  obtain ⟨id', hp⟩ := pc_pos.1 (show 0 < pc log x q by omega)
  obtain ⟨d', e', h7, h8⟩ := k.prims _ _ _ hp
  obtain ⟨rfl, rfl⟩ := k.tg.uniq _ _ _ _ _ he h7
  rw [hq] at h8
  cases h8
  exact hp

/-- When everything up to the end has been waited for. -/
theorem SInv.comp_all {fu : M} {tag : Nat → Option (Nat × Nat × Eff)} {log : List (SEv A Mo)} {nx : Nat}
    {ev : List EF} (k : SInv fu tag log nx ev) {d x : Nat} {e : Eff} (he : SEv.effStart d x e ∈ log)
    (h : Comp fu log x e e.len) : Verif.Store.ran x log = e.acts ∧ ∀ pos id, SEv.prim x pos id ∈ log →
      ∃ r, SEv.primRet x pos r ∈ log ∧ ∀ g, r = some g → (fu.cell g).done = true := by
  constructor
  · refine k.all he ?_
    intro q id hq
    have hlt : q < e.len := by
      rw [← Eff.leaves_length]
      exact (List.getElem?_eq_some_iff.1 hq).1
    obtain ⟨r, hr, _⟩ := h q id hlt hq
    exact k.prim_of_ret he hq hr
  · intro pos id hp
    obtain ⟨d', e', h7, h8⟩ := k.prims _ _ _ hp
    obtain ⟨rfl, rfl⟩ := k.tg.uniq _ _ _ _ _ he h7
    have hlt : pos < e.len := by
      rw [← Eff.leaves_length]
      exact (List.getElem?_eq_some_iff.1 h8).1
    obtain ⟨r, hr, hg⟩ := h pos id hlt h8
    exact ⟨r, hr, fun g h => (hg g h).1⟩

/-- When the next user code is called, all before has settled. -/
theorem SInv.settled {fu : M} {tag : Nat → Option (Nat × Nat × Eff)} {log : List (SEv A Mo)} {nx : Nat}
    {ev : List EF} (k : SInv fu tag log nx ev) {n id : Nat} {f : EF} (hn : ev[n]? = some f)
    (hm : f.mode = .call (.prim id)) : ∀ pos id, SEv.prim f.x pos id ∈ log →
      ∃ r, SEv.primRet f.x pos r ∈ log ∧ ∀ g, r = some g → (fu.cell g).done = true := by
  obtain ⟨d, e, lo, stop, h1, h2, h3, h4, h5, h6⟩ := k.fr f (List.mem_of_getElem? hn)
  rw [hm] at h6
  have hleaf : e.leaves[f.pos]? = some (some id) := by
    have : f.rem = some id :: f.ks.flatMap Eff.leaves := by unfold EF.rem; rw [hm]; rfl
    rw [this] at h3
    exact h3.get
  intro pos id' hp
  obtain ⟨d', e', h7, h8⟩ := k.prims _ _ _ hp
  obtain ⟨rfl, rfl⟩ := k.tg.uniq _ _ _ _ _ h1 h7
  obtain ⟨m, _, hr2⟩ := k.ran d f.x e h1
  have hlt : pos < f.pos := by
    have h9 : pos < m := (hr2 pos id' h8).2 hp
    have h10 : m ≤ f.pos := by
      rcases Nat.lt_or_ge f.pos m with h | h
      · have hp' := (hr2 _ _ hleaf).1 h
        have h11 := k.one f.x f.pos
        have h12 : 0 < pc log f.x f.pos := pc_pos.2 ⟨id, hp'⟩
        have h13 := ec_erase hn f.x f.pos
        have h14 : cov f f.x f.pos = 1 := by
          unfold cov EF.first EF.last
          simp only [hm, Eff.len]
          rw [if_pos]
          exact ⟨trivial, by omega, by omega⟩
        unfold total at h11
        omega
      · exact h
    omega
  obtain ⟨r, hr, hg⟩ := h6.2.2 pos id' hlt h8
  exact ⟨r, hr, fun g h => (hg g h).1⟩

theorem ran_keep {x : Nat} {l es : List (SEv A Mo)} (h : ∀ e ∈ es, ∀ x q id, e ≠ SEv.prim x q id) :
    ran x (l ++ es) = ran x l := by
  rw [ran_append, ran_nil (l := es) (fun q id hm => h _ hm _ _ _ rfl)]
  simp

/-- Which step calls user code. -/
theorem step_ran {c : Cfg A Mo} {st st' : St A Mo} {op : SOp A} (h : step c st op = some st') {x : Nat}
    (hr : ran x st'.log ≠ ran x st.log) :
    ∃ n f id, op = .go n ∧ st.ev[n]? = some f ∧ f.mode = .call (.prim id) ∧ f.x = x := by
  have one : ∀ (s : St A Mo) (e : SEv A Mo), (∀ x q id, e ≠ SEv.prim x q id) →
      ran x (s.say e).log = ran x s.log := by
    intro s e he
    refine ran_keep (es := [e]) ?_
    intro e' he'
    rw [List.mem_singleton.1 he']
    exact he
  have snd : ∀ s : St A Mo, ran x s.sendDown.notify.log = ran x s.log := by
    intro s
    obtain ⟨es, h1, h2⟩ := notify_log s
    rw [h1]
    refine ran_keep ?_
    intro e he
    obtain ⟨v, rfl⟩ := h2 e he
    intros; simp
  have pub : ∀ s : St A Mo, ran x (s.publish c).log = ran x s.log := by
    intro s
    unfold St.publish
    split
    · rfl
    · exact snd s
  have cmp : ∀ {s s1 : St A Mo} {i : Nat}, s.complete c i = some s1 → s1.log = s.log :=
    fun h => (complete_toks h).log
  have fst : ∀ {s s1 : St A Mo} {o : Op}, s.fstep o = some s1 → s1.log = s.log :=
    fun h => (fstep_toks h).log
  cases op with
  | dispatch a =>
    exfalso; apply hr
    simp only [step, St.dispatch, Option.map_eq_some_iff] at h
    obtain ⟨s1, h, rfl⟩ := h
    show ran x (St.say (s1.post _) _).log = _
    rw [one _ _ (by simp)]
    show ran x s1.log = _
    rw [fst h]
  | loop =>
    exfalso; apply hr
    simp only [step] at h
    unfold St.loop at h
    split at h
    · cases h
    · dsimp only at h
      split at h
      · cases h
        rw [one _ _ (by simp)]
      simp only [Option.map_eq_some_iff] at h
      obtain ⟨s1, hs, rfl⟩ := h
      rw [one _ _ (by simp), (pushDown_fields c s1 _).2.2.2.2.2]
      split at hs
      · split at hs
        · rw [cmp hs]
        · cases hs; rfl
      · cases hs; rfl
    · cases h
      show ran x (St.say (St.say (St.publish c _) _) _).log = _
      rw [one _ _ (by simp), one _ _ (by simp), pub]
    · rw [cmp h, one _ _ (by simp), pub]
    · rw [(runTask_toks h).log]
  | loopRaise =>
    exfalso; apply hr
    obtain ⟨y, q, d, o, hq, _, _, _, rfl⟩ := loopRaise_some h
    rw [one _ _ (by simp), pub]
  | other l =>
    exfalso; apply hr
    simp only [step] at h
    split at h
    · cases h
    · rw [(runTask_toks h).log]
  | fut op =>
    exfalso; apply hr
    simp only [step] at h
    split at h
    · rw [fst h]
    · cases h
  | go n =>
    simp only [step] at h
    split at h
    · cases h
    · rename_i f hf
      unfold St.go at h
      dsimp only at h
      split at h
      · cases h
      · cases h; exact absurd rfl hr
      · rename_i id hm
        refine ⟨n, f, id, rfl, hf, hm, ?_⟩
        apply Decidable.byContradiction
        intro hx
        apply hr
        cases h
        show ran x (st.log ++ [SEv.prim f.x f.pos id]) = _
        rw [ran_append]
        simp [ran, hx]
      · cases h; exact absurd rfl hr
      · cases h
      · exfalso; apply hr
        split at h
        · split at h
          · simp only [Option.map_eq_some_iff] at h
            obtain ⟨s1, h, rfl⟩ := h
            show ran x s1.log = _
            rw [fst h]
          · cases h; rfl
        · split at h
          · split at h
            · split at h
              · rw [fst h, one _ _ (by simp)]
              · rw [fst h, one _ _ (by simp)]
            · cases h
              rw [one _ _ (by simp)]
          · simp only [Option.bind_eq_some_iff] at h
            obtain ⟨w, _, h⟩ := h
            split at h
            · rw [fst h]
            · simp only [Option.bind_eq_some_iff] at h
              obtain ⟨s1, h, h2⟩ := h
              rw [fst h2, fst h]
  | prim n o =>
    exfalso; apply hr
    simp only [step] at h
    split at h
    · split at h
      · cases h
        show ran x (St.say st _).log = _
        rw [one _ _ (by simp)]
      · cases h
    · cases h
  | raise n =>
    exfalso; apply hr
    simp only [step] at h
    split at h
    · cases h
      show ran x (St.say st _).log = _
      rw [one _ _ (by simp)]
    · simp only [Option.bind_eq_some_iff] at h
      obtain ⟨_, _, h⟩ := h
      rw [fst h]
      show ran x (St.say st _).log = _
      rw [one _ _ (by simp)]
    · cases h
  | commit =>
    exfalso; apply hr
    simp only [step] at h
    split at h
    · cases h; exact snd st
    · cases h

/-- One at a time. -/
theorem step_ran_one {c : Cfg A Mo} {st st' : St A Mo} {op : SOp A} (h : step c st op = some st') {x : Nat}
    (hr : ran x st'.log ≠ ran x st.log) : (ran x st'.log).length = (ran x st.log).length + 1 := by
  obtain ⟨n, f, id, rfl, hf, hm, hx⟩ := step_ran h hr
  simp only [step, hf, St.go, hm] at h
  cases h
  show (ran x (st.log ++ [SEv.prim f.x f.pos id])).length = _
  rw [ran_append]
  simp [ran, hx]

/-- The returns of user code. -/
def rets (l : List (SEv A Mo)) : List (Nat × Nat × Option Nat) := l.filterMap fun e =>
  match e with
  | .primRet x q r => some (x, q, r)
  | _ => none

theorem rets_append (l l' : List (SEv A Mo)) : rets (l ++ l') = rets l ++ rets l' := List.filterMap_append ..

theorem mem_rets {l : List (SEv A Mo)} {x q : Nat} {r : Option Nat} :
    (x, q, r) ∈ rets l ↔ SEv.primRet x q r ∈ l := by
  unfold rets
  rw [List.mem_filterMap]
  constructor
  · rintro ⟨e, h1, h2⟩
    cases e <;> simp_all
  · intro h
    exact ⟨_, h, rfl⟩

theorem rets_keep {l es : List (SEv A Mo)} (h : ∀ e ∈ es, ∀ x q r, e ≠ SEv.primRet x q r) :
    rets (l ++ es) = rets l := by
  rw [rets_append]
  have : rets es = [] := by
    unfold rets
    rw [List.filterMap_eq_nil_iff]
    intro e he
    cases e with
    | primRet x q r => exact absurd rfl (h _ he x q r)
    | _ => rfl
  rw [this, List.append_nil]

/-- Which step lets user code return. -/
theorem step_ret {c : Cfg A Mo} {st st' : St A Mo} {op : SOp A} (h : step c st op = some st') 
    (hr : rets st'.log ≠ rets st.log) :
    ∃ n o f id r, op = .prim n o ∧ st.ev[n]? = some f ∧ f.mode = .prim id ∧ c.null id = false ∧
      rets st'.log = rets st.log ++ [(f.x, f.pos, r)] := by
  have one : ∀ (s : St A Mo) (e : SEv A Mo), (∀ x q r, e ≠ SEv.primRet x q r) →
      rets (s.say e).log = rets s.log := by
    intro s e he
    refine rets_keep (es := [e]) ?_
    intro e' he'
    rw [List.mem_singleton.1 he']
    exact he
  have snd : ∀ s : St A Mo, rets s.sendDown.notify.log = rets s.log := by
    intro s
    obtain ⟨es, h1, h2⟩ := notify_log s
    rw [h1]
    refine rets_keep ?_
    intro e he
    obtain ⟨v, rfl⟩ := h2 e he
    intros; simp
  have pub : ∀ s : St A Mo, rets (s.publish c).log = rets s.log := by
    intro s
    unfold St.publish
    split
    · rfl
    · exact snd s
  have cmp : ∀ {s s1 : St A Mo} {i : Nat}, s.complete c i = some s1 → s1.log = s.log :=
    fun h => (complete_toks h).log
  have fst : ∀ {s s1 : St A Mo} {o : Op}, s.fstep o = some s1 → s1.log = s.log :=
    fun h => (fstep_toks h).log
  cases op with
  | dispatch a =>
    exfalso; apply hr
    simp only [step, St.dispatch, Option.map_eq_some_iff] at h
    obtain ⟨s1, h, rfl⟩ := h
    show rets (St.say (s1.post _) _).log = _
    rw [one _ _ (by simp)]
    show rets s1.log = _
    rw [fst h]
  | loop =>
    exfalso; apply hr
    simp only [step] at h
    unfold St.loop at h
    split at h
    · cases h
    · dsimp only at h
      split at h
      · cases h
        rw [one _ _ (by simp)]
      simp only [Option.map_eq_some_iff] at h
      obtain ⟨s1, hs, rfl⟩ := h
      rw [one _ _ (by simp), (pushDown_fields c s1 _).2.2.2.2.2]
      split at hs
      · split at hs
        · rw [cmp hs]
        · cases hs; rfl
      · cases hs; rfl
    · cases h
      show rets (St.say (St.say (St.publish c _) _) _).log = _
      rw [one _ _ (by simp), one _ _ (by simp), pub]
    · rw [cmp h, one _ _ (by simp), pub]
    · rw [(runTask_toks h).log]
  | loopRaise =>
    exfalso; apply hr
    obtain ⟨y, q, d, o, hq, _, _, _, rfl⟩ := loopRaise_some h
    rw [one _ _ (by simp), pub]
  | other l =>
    exfalso; apply hr
    simp only [step] at h
    split at h
    · cases h
    · rw [(runTask_toks h).log]
  | fut op =>
    exfalso; apply hr
    simp only [step] at h
    split at h
    · rw [fst h]
    · cases h
  | go n =>
    simp only [step] at h
    split at h
    · cases h
    · rename_i f hf
      unfold St.go at h
      dsimp only at h
      split at h
      · cases h
      · cases h; exact absurd rfl hr
      · exfalso; apply hr
        cases h
        exact one st _ (by simp)
      · cases h; exact absurd rfl hr
      · cases h
      · exfalso; apply hr
        split at h
        · split at h
          · simp only [Option.map_eq_some_iff] at h
            obtain ⟨s1, h, rfl⟩ := h
            show rets s1.log = _
            rw [fst h]
          · cases h; rfl
        · split at h
          · split at h
            · split at h
              · rw [fst h, one _ _ (by simp)]
              · rw [fst h, one _ _ (by simp)]
            · cases h
              rw [one _ _ (by simp)]
          · simp only [Option.bind_eq_some_iff] at h
            obtain ⟨w, _, h⟩ := h
            split at h
            · rw [fst h]
            · simp only [Option.bind_eq_some_iff] at h
              obtain ⟨s1, h, h2⟩ := h
              rw [fst h2, fst h]
  | prim n o =>
    simp only [step] at h
    split at h
    · rename_i x pos id ks k hn
      split at h
      · rename_i hh
        cases h
        refine ⟨n, o, _, id, (o.bind fun i => st.fu.futs[i]?).join, rfl, hn, rfl, hh.1, ?_⟩
        show rets (st.log ++ [_]) = _
        rw [rets_append]
        rfl
      · cases h
    · cases h
  | raise n =>
    exfalso; apply hr
    simp only [step] at h
    split at h
    · cases h
      show rets (St.say st _).log = _
      rw [one _ _ (by simp)]
    · simp only [Option.bind_eq_some_iff] at h
      obtain ⟨_, _, h⟩ := h
      rw [fst h]
      show rets (St.say st _).log = _
      rw [one _ _ (by simp)]
    · cases h
  | commit =>
    exfalso; apply hr
    simp only [step] at h
    split at h
    · cases h; exact snd st
    · cases h

/-- Events stay. -/
theorem step_mono {c : Cfg A Mo} {st st' : St A Mo} {op : SOp A} (h : step c st op = some st') {e : SEv A Mo}
    (he : e ∈ st.log) : e ∈ st'.log := by
  have pub : ∀ s : St A Mo, e ∈ s.log → e ∈ (s.publish c).log := by
    intro s hs
    unfold St.publish
    split
    · exact hs
    · obtain ⟨es, h1, _⟩ := notify_log s
      rw [h1]; exact List.mem_append_left _ hs
  have one : ∀ (s : St A Mo) (e' : SEv A Mo), e ∈ s.log → e ∈ (s.say e').log :=
    fun s e' hs => List.mem_append_left _ hs
  by_cases hop : op = .loop
  · subst hop
    simp only [step] at h
    unfold St.loop at h
    split at h
    · cases h
    · dsimp only at h
      split at h
      · cases h
        exact one _ _ he
      simp only [Option.map_eq_some_iff] at h
      obtain ⟨s1, hs, rfl⟩ := h
      refine one _ _ ?_
      rw [(pushDown_fields c s1 _).2.2.2.2.2]
      split at hs
      · split at hs
        · rw [(complete_toks hs).log]; exact he
        · cases hs; exact he
      · cases hs; exact he
    · cases h
      exact one _ _ (one _ _ (pub _ he))
    · rw [(complete_toks h).log]
      exact one _ _ (pub _ he)
    · rw [(runTask_toks h).log]; exact he
  · by_cases hop' : op = .loopRaise
    · subst hop'
      obtain ⟨y, q, d, o, hq, _, _, _, rfl⟩ := loopRaise_some h
      exact one _ _ (pub _ he)
    · obtain ⟨es, h1, _⟩ := step_log h hop hop'
      rw [h1]; exact List.mem_append_left _ he

/-- What returns is not null. -/
theorem ret_not_null {c : Cfg A Mo} (hb : ∀ m a, Built (c.reducer m a).2) {st : St A Mo} (r : Reach c st)
    (hu : st.fu.ub = false) {x q : Nat} {o : Option Nat} (h : SEv.primRet x q o ∈ st.log) {id : Nat}
    (hp : SEv.prim x q id ∈ st.log) : c.null id = false := by
  have key : ∀ {st : St A Mo}, Reach c st → st.fu.ub = false → ∀ {x q : Nat} {o : Option Nat},
      (x, q, o) ∈ rets st.log → ∃ d e id, SEv.effStart d x e ∈ st.log ∧ e.leaves[q]? = some (some id) ∧
        c.null id = false := by
    intro st r
    induction r with
    | start => intro _ x q o h; cases h
    | @step st st' op r h ih =>
      intro hu x q o hx
      have hu0 := step_ub h hu
      have hl := fun e => step_mono h (e := e)
      by_cases hr : rets st'.log = rets st.log
      · rw [hr] at hx
        obtain ⟨d, e, id, h1, h2⟩ := ih hu0 hx
        exact ⟨d, e, id, hl _ h1, h2⟩
      · obtain ⟨n, o', f, id, r', rfl, h1, h2, h3, h4⟩ := step_ret h hr
        rw [h4] at hx
        rcases List.mem_append.1 hx with hx | hx
        · obtain ⟨d, e, id, h1, h2⟩ := ih hu0 hx
          exact ⟨d, e, id, hl _ h1, h2⟩
        · rw [List.mem_singleton] at hx
          cases hx
          have k := r.seq hb hu0
          obtain ⟨d, e, lo, stop, h5, _, _, _, _, h6⟩ := k.s.fr f (List.mem_of_getElem? h1)
          rw [h2] at h6
          obtain ⟨d', e', h7, h8⟩ := k.s.prims _ _ _ h6.2.2
          exact ⟨d', e', id, hl _ h7, h8, h3⟩
  obtain ⟨d, e, id', h1, h2, h3⟩ := key r hu (mem_rets.2 h)
  have k := r.seq hb hu
  obtain ⟨d', e', h7, h8⟩ := k.s.prims _ _ _ hp
  obtain ⟨rfl, rfl⟩ := k.s.tg.uniq _ _ _ _ _ h1 h7
  rw [h2] at h8
  cases h8
  exact h3

/-- Futures that parts of a call have returned are completed in the end. -/
theorem path_done {c : Cfg A Mo} {st : St A Mo} (r : Reach c st) (hu : st.fu.ub = false) (k : SeqInv st)
    (hq : ∀ l, st.fu.queue l = []) (ha : st.fu.active = []) {d x : Nat} {e : Eff}
    (he : SEv.effStart d x e ∈ st.log) (ht : ¬ Threw st x)
    (hs : ∀ pos g, SEv.primRet x pos (some g) ∈ st.log → (st.fu.cell g).done = true) :
    ∀ pos n lo g, pos - lo ≤ n → Path st.fu st.tag st.log x e lo pos (some g) →
      (st.fu.cell g).done = true := by
  have i := k.fi
  intro pos
  induction pos using Nat.strongRecOn with
  | ind pos ihp =>
  intro n
  induction n with
  | zero =>
    intro lo g hn hp
    rcases hp with ⟨pos', rfl, _, hr⟩ | ⟨t, s, pos', b, h1, h2, rfl, h4⟩
    · exact hs _ _ hr
    · obtain ⟨_, _, _, _, _, _, _, _, hg, _⟩ := k.s.tg.tags _ _ _ _ h1
      have := hg.len
      omega
  | succ n ihn =>
    intro lo g hn hp
    rcases hp with ⟨pos', rfl, _, hr⟩ | ⟨t, s, pos', b, h1, h2, rfl, h4⟩
    · exact hs _ _ hr
    · obtain ⟨d', e', s', p', h5, h6, h7, _, hg, _⟩ := k.s.tg.tags _ _ _ _ h1
      have hlen := hg.len
      obtain ⟨rfl, rfl⟩ := k.s.tg.uniq _ _ _ _ _ he h5
      obtain ⟨rfl, rfl, _⟩ := i.uniq _ _ _ _ _ _ _ h4 h6
      have hd : (st.fu.cell s).done = true := ihp pos' (by omega) pos' 0 s (by omega) h7
      have hst := i.quiet_start hq h4 hd
      rcases k.s.tg.stt _ _ _ _ h1 hst with ⟨res, hf⟩ | ⟨f, hf, _⟩ | h9
      · obtain ⟨r', rfl, hp'⟩ := k.s.tg.fin _ _ _ _ _ _ _ h1 he hf
        cases r' with
        | none => exact (r.fut.live hu).void _ _ _ _ _ h4 hf (by simp)
        | some g' =>
          have hd' := ihn (pos' + 1) g' (by omega) hp'
          obtain ⟨c2, q2, h10⟩ := (r.fut.live hu).pass _ _ _ _ _ h4 hf
          exact Future.quiet_prom r.fut hu hq ha h10 hd'
      · rw [ha] at hf; cases hf
      · exact absurd h9 ht

/-- In the end, all user code has been called. -/
theorem all_ran {c : Cfg A Mo} {st : St A Mo} (r : Reach c st) (hu : st.fu.ub = false) (k : SeqInv st)
    (hq : st.quiet) {d x : Nat} {e : Eff} (he : SEv.effStart d x e ∈ st.log) (ht : ¬ Threw st x)
    (hs : ∀ pos g, SEv.primRet x pos (some g) ∈ st.log → (st.fu.cell g).done = true) :
    ran x st.log = e.acts := by
  obtain ⟨hq, ha, hev⟩ := hq
  refine k.s.all he ?_
  intro q id hl
  have h1 := k.s.full d x e q id he hl (fun pos h => ht ⟨pos, h⟩)
  rw [hev] at h1
  unfold total at h1
  simp only [ec, Nat.zero_add] at h1
  by_cases hcc : 0 < cc st.fu st.tag x q
  · obtain ⟨t, pos, b, _, h2, h3, h4, h5⟩ := ccN_pos hcc
    obtain ⟨d', e', s, p, h6, h7, h8, _⟩ := k.s.tg.tags _ _ _ _ h2
    obtain ⟨rfl, rfl⟩ := k.s.tg.uniq _ _ _ _ _ he h6
    have hd := path_done r hu k hq ha he ht hs pos pos 0 s (by omega) h8
    exact absurd (k.fi.quiet_start hq h7 hd) h3
  · obtain ⟨id', hp⟩ := pc_pos.1 (show 0 < pc st.log x q by omega)
    obtain ⟨d', e', h7, h8⟩ := k.s.prims _ _ _ hp
    obtain ⟨rfl, rfl⟩ := k.s.tg.uniq _ _ _ _ _ he h7
    rw [hl] at h8
    cases h8
    exact hp

end Verif.Store
