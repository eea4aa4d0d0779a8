import Verif.Graph.Cost
import Verif.Graph.Tower

/-!
# What a write costs (C110)

The record of `CallL` has one entry for every call of `send_up` (one value given to one cursor), and
one for every time that a node computes its value (one call of the `view` function of its lens).
-/

namespace Verif.Graph

variable {V S : Type} [DecidableEq V]

/-- C110: keeping a record changes nothing: the calls with a record are the calls; and what the record
says is computed is what the functions with a record compute. -/
theorem C110_record [Inhabited S] {m m' : M V S} {op : Op V S} :
    (Call m op m' ↔ ∃ l, CallL m op l m') ∧
    (∀ n v st view put, m.stack = .up n v :: st → (m.g.node n).kind = .calc view (some put) true →
      istep m = some m' → m'.g = (Graph.refreshL (n + 1) m.g n).1) := by
  refine ⟨⟨?_, ?_⟩, ?_⟩
  · rintro ⟨m1, h1, h2, h3⟩
    obtain ⟨l, hl⟩ := h2.record
    exact ⟨l, m1, h1, hl, h3⟩
  · rintro ⟨l, m1, h1, h2, h3⟩
    exact ⟨m1, h1, h2.forget, h3⟩
  · intro n v st view put hst hk he
    rw [refreshL_fst]
    unfold istep at he
    split at he
    · cases he
    · rw [hst] at he
      simp only [hk] at he
      cases he
      rfl

theorem write_begins [Inhabited S] {m m1 : M V S} {op : Op V S} {n : Nat}
    (hop : op.target = some n) (he : ustep m op = some m1) :
    (∃ st, m.stack = .user :: st) ∧ m.ub = false ∧ ∃ v, m1 = { m with stack := .up n v :: m.stack } := by
  have hub := (ustep_ub he).1
  unfold ustep at he
  rw [if_neg (by rw [hub]; exact Bool.false_ne_true)] at he
  split at he
  · rename_i st hst
    refine ⟨⟨st, hst⟩, hub, ?_⟩
    cases op with
    | set k v =>
      cases hop
      dsimp only at he
      split at he
      · cases he; exact ⟨v, rfl⟩
      · cases he
    | update k f =>
      cases hop
      dsimp only at he
      split at he
      · cases he; exact ⟨_, rfl⟩
      · cases he
    | _ => cases hop
  · cases he

/-- C110: a write (`set` or `update`) to a cursor of transactional states, derived by any lenses and
merges, gives a value to every cursor and state once for every path that leads from it to the written
cursor; and it makes the values on the way be computed as often as `cost` says. -/
theorem C110_paths [Inhabited S] {m m1 : M V S} (hr : Reach m) {op : Op V S} {n : Nat}
    (hop : op.target = some n) (hn : Lensed m.g n) (he : ustep m op = some m1) :
    (∃ l m', CallL m op l m') ∧
    ∀ l m', CallL m op l m' →
      (∀ t, l.count (.sent t) = m.g.ways t n) ∧
      ∀ t, (∀ a, (m.g.node t).kind ≠ .state a) → l.count (.computed t) = m.g.cost t n := by
  obtain ⟨⟨st, hst⟩, hub, v, rfl⟩ := write_begins hop he
  obtain ⟨l, m', h1, h2, _, _, h5⟩ := up_costs n { m with stack := .up n v :: m.stack } v m.stack
    (reach_inv hr hub).wf hn hub rfl
  refine ⟨⟨l, m', _, he, h1, h2⟩, ?_⟩
  rintro l2 m2 ⟨m1, he', h1', h2'⟩
  rw [he] at he'
  cases he'
  obtain ⟨rfl, rfl⟩ := h1.det h1' (istep_user (st := st) (by rw [h2, hst]))
    (istep_user (st := st) (by rw [h2', hst]))
  exact h5

/-- `Zooms g r cs`: every cursor of the list `cs` is zoomed by a lens from the next one, and the last
one from the cursor of the transactional state `r`. -/
inductive Zooms (g : Graph V S) (r : Nat) : List Nat → Prop where
  | one {n : Nat} {view put} (st1 : V → V → V) : (g.node r).kind = .state false →
      (g.node n).kind = .calc view (some put) true → (g.node n).parents = [r] →
      (∀ x v, put [x] v = [st1 x v]) → Zooms g r [n]
  | cons {n p : Nat} {cs : List Nat} {view put} (st1 : V → V → V) :
      (g.node n).kind = .calc view (some put) true → (g.node n).parents = [p] →
      (∀ x v, put [x] v = [st1 x v]) → Zooms g r (p :: cs) → Zooms g r (n :: p :: cs)

theorem Zooms.facts {g : Graph V S} (w : WF g) (hroot : ∀ r a, (g.node r).kind = .state a →
    (g.node r).parents = []) {r : Nat} {cs : List Nat} (h : Zooms g r cs) :
    ∃ n cs', cs = n :: cs' ∧ Lensed g n ∧ (∀ c ∈ cs', c < n) ∧ cs.Nodup ∧ r < n ∧ r ∉ cs ∧
      (∀ c ∈ cs, ∀ a, (g.node c).kind ≠ .state a) ∧
      (∀ t, g.ways t n = if t ∈ r :: cs then 1 else 0) ∧
      (∀ t, t ≠ r → t ∉ cs → g.cost t n = 0) ∧
      ∀ i c, cs[i]? = some c → g.cost c n = i + 1 := by
  have hplain : ∀ {n p : Nat} {view put} {st1 : V → V → V},
      (g.node n).kind = .calc view (some put) true → (g.node n).parents = [p] →
      (∀ x v, put [x] v = [st1 x v]) → Lensed g p → Lensed g n := by
    intro n p view put st1 hk hp hput hpl
    refine .comp hk ?_ ?_
    · intro old v ho
      rw [hp] at ho ⊢
      match old, ho with
      | [x], _ => rw [hput]; rfl
    · intro q hq
      rw [hp] at hq
      rw [List.mem_singleton.1 hq]
      exact hpl
  induction h with
  | @one n view put st1 hr hk hp hput =>
    have hlt : r < n := w.lt n r (by rw [hp]; exact List.mem_singleton.2 rfl)
    have hrr : ∀ t, g.ways t r = if r = t then 1 else 0 := by
      intro t
      rw [ways_rec w, hroot r _ hr]
      rfl
    have hcr : ∀ t, g.cost t r = 0 := by
      intro t
      have : g.refreshes r = false := by unfold Graph.refreshes; rw [hr]
      rw [cost_rec w, hroot r _ hr, this]
      rfl
    have href : g.refreshes n = true := by unfold Graph.refreshes; rw [hk]
    have hw : ∀ t, g.ways t n = if t ∈ [r, n] then 1 else 0 := by
      intro t
      rw [ways_rec w, hp, List.map_cons, List.map_nil, List.sum_cons, List.sum_nil, hrr]
      by_cases h1 : n = t
      · subst h1; simp; omega
      · by_cases h2 : r = t
        · subst h2; simp; omega
        · simp [h1, h2, Ne.symm h1, Ne.symm h2]
    have hc : ∀ t, g.cost t n = g.ways t n := by
      intro t
      rw [cost_rec w, hp, List.map_cons, List.map_nil, List.sum_cons, List.sum_nil, hcr, href]
      simp
    refine ⟨n, [], rfl, hplain hk hp hput (.state hr (hroot r _ hr)), fun c hc => (nomatch hc),
      by simp, hlt, by simp; omega, ?_, hw, ?_, ?_⟩
    · intro c hc a h
      rw [List.mem_singleton.1 hc, hk] at h
      cases h
    · intro t h1 h2
      rw [hc, hw]
      simp at h2
      simp [h1, h2]
    · intro i c hi
      match i, hi with
      | 0, hi =>
        cases hi
        rw [hc, hw]
        simp
  | @cons n p cs view put st1 hk hp hput _ ih =>
    obtain ⟨p', cs', hcs, i1, i2, i3, i4, i5, i6, i7, i8, i9⟩ := ih
    simp only [List.cons.injEq] at hcs
    obtain ⟨rfl, rfl⟩ := hcs
    have hlt : p < n := w.lt n p (by rw [hp]; exact List.mem_singleton.2 rfl)
    have hlt' : ∀ c ∈ p :: cs, c < n := by
      intro c hc
      rcases List.mem_cons.1 hc with rfl | hc
      · exact hlt
      · exact Nat.lt_trans (i2 c hc) hlt
    have href : g.refreshes n = true := by unfold Graph.refreshes; rw [hk]
    have hw : ∀ t, g.ways t n = if t ∈ r :: n :: p :: cs then 1 else 0 := by
      intro t
      rw [ways_rec w, hp, List.map_cons, List.map_nil, List.sum_cons, List.sum_nil, i7]
      by_cases h1 : n = t
      · subst h1
        have hnot : n ∉ r :: p :: cs := by
          intro h
          rcases List.mem_cons.1 h with rfl | h
          · omega
          · exact Nat.lt_irrefl _ (hlt' _ h)
        rw [if_pos rfl, if_neg hnot, if_pos (List.mem_cons_of_mem _ List.mem_cons_self), Nat.add_zero]
      · rw [if_neg h1, Nat.zero_add, Nat.add_zero]
        have : (t ∈ r :: p :: cs) ↔ t ∈ r :: n :: p :: cs := by
          simp [Ne.symm h1]
        by_cases h2 : t ∈ r :: p :: cs
        · rw [if_pos h2, if_pos (this.1 h2)]
        · rw [if_neg h2, if_neg fun h => h2 (this.2 h)]
    have hc : ∀ t, g.cost t n = g.ways t n + g.cost t p := by
      intro t
      rw [cost_rec w, hp, List.map_cons, List.map_nil, List.sum_cons, List.sum_nil, href]
      simp
    refine ⟨n, p :: cs, rfl, hplain hk hp hput i1, hlt', ?_, by omega, ?_, ?_, hw, ?_, ?_⟩
    · exact List.nodup_cons.2 ⟨fun h => Nat.lt_irrefl _ (hlt' _ h), i3⟩
    · intro h
      rcases List.mem_cons.1 h with rfl | h
      · omega
      · exact i5 h
    · intro c hc a h
      rcases List.mem_cons.1 hc with rfl | hc
      · rw [hk] at h; cases h
      · exact i6 c hc a h
    · intro t h1 h2
      have h3 : t ∉ p :: cs := fun h => h2 (List.mem_cons_of_mem _ h)
      rw [hc, hw, i8 t h1 h3, if_neg]
      intro h
      rcases List.mem_cons.1 h with h | h
      · exact h1 h
      · exact h2 h
    · intro i c hi
      match i, hi with
      | 0, hi =>
        simp only [List.getElem?_cons_zero, Option.some.injEq] at hi
        subst hi
        rw [hc, hw, i8 n (by omega) (fun h => Nat.lt_irrefl _ (hlt' _ h)), if_pos (by simp)]
      | i + 1, hi =>
        rw [List.getElem?_cons_succ] at hi
        have hm := List.mem_of_getElem? hi
        rw [hc, hw, i9 i c hi, if_pos (by simp [List.mem_cons.1 hm])]
        omega

/-- C110: a write through `k` zooms, each of which is kept as a cursor: the cursors and the state are
given a value once each, but the `i`-th cursor, counted from the written one, computes its value
`i + 1` times, so that `k * (k + 1) / 2` values are computed.  Nothing else is computed. -/
theorem C110_zooms [Inhabited S] {m m' : M V S} (hr : Reach m) {op : Op V S} {r n : Nat}
    {cs : List Nat} (hop : op.target = some n) (hz : Zooms m.g r (n :: cs)) {l : List Job}
    (hc : CallL m op l m') :
    (∀ t, l.count (.sent t) = if t ∈ r :: n :: cs then 1 else 0) ∧
    (∀ i c, (n :: cs)[i]? = some c → l.count (.computed c) = i + 1) ∧
    2 * ((n :: cs).map fun c => l.count (.computed c)).sum = (n :: cs).length * ((n :: cs).length + 1) ∧
    ∀ t, (∀ a, (m.g.node t).kind ≠ .state a) → t ∉ n :: cs → l.count (.computed t) = 0 := by
  have hc0 := hc
  obtain ⟨m1, he, -⟩ := hc0
  have hub := (ustep_ub he).1
  have w := (reach_inv hr hub).wf
  have hroot : ∀ r a, (m.g.node r).kind = .state a → (m.g.node r).parents = [] := by
    intro r a hk
    by_cases h : r < m.g.size
    · exact roots_no_parents hr hub h (.inl ⟨a, hk⟩)
    · exact (w.unused r (by omega)).2.2
  obtain ⟨n', cs', hcs, h1, _, _, h3, h4, h5, h6, h7, h8⟩ := hz.facts w hroot
  simp only [List.cons.injEq] at hcs
  obtain ⟨rfl, rfl⟩ := hcs
  have hrk : ∃ a, (m.g.node r).kind = .state a := by
    clear h1 h3 h4 h5 h6 h7 h8 hop
    generalize n :: cs = x at hz
    induction hz with
    | one _ h => exact ⟨_, h⟩
    | cons _ _ _ _ _ ih => exact ih
  obtain ⟨c1, c2⟩ := (C110_paths hr hop h1 he).2 l m' hc
  have key : ∀ i c, (n :: cs)[i]? = some c → l.count (.computed c) = i + 1 := by
    intro i c hi
    rw [c2 c (h5 c (List.mem_of_getElem? hi)), h8 i c hi]
  refine ⟨fun t => by rw [c1, h6], key, ?_, ?_⟩
  · have : ∀ (x : List Nat) (j : Nat), (∀ i c, x[i]? = some c → l.count (.computed c) = i + 1 + j) →
        2 * (x.map fun c => l.count (.computed c)).sum = x.length * (x.length + 1) + 2 * j * x.length := by
      intro x
      induction x with
      | nil => intro j _; simp
      | cons a x ih =>
        intro j hj
        rw [List.map_cons, List.sum_cons, Nat.mul_add, ih (j + 1) fun i c hi => by
          rw [hj (i + 1) c (by rw [List.getElem?_cons_succ]; exact hi)]; omega,
          hj 0 a rfl, List.length_cons]
        simp only [Nat.mul_add, Nat.add_mul]
        omega
    have := this (n :: cs) 0 (fun i c hi => by rw [key i c hi])
    omega
  · intro t ht hn
    rw [c2 t ht]
    refine h7 t ?_ hn
    rintro rfl
    obtain ⟨a, ha⟩ := hrk
    exact ht a ha

/-! ### Diamonds -/

omit [DecidableEq V] in
theorem Lensed.canWrite {g : Graph V S} {n : Nat} (h : Lensed g n) : g.canWrite n = true := by
  unfold Graph.canWrite
  cases h with
  | state hk => rw [hk]
  | comp hk => rw [hk]; rfl

/-- All nodes are cursors as in `C110_paths`. -/
structure AllLensed (m : M Nat Nat) : Prop where
  reach : Reach m
  rest : m.AtRest
  live : ∀ n, n < m.g.size → m.Live n
  plain : ∀ n, n < m.g.size → Lensed m.g n

/-- What is written goes to all the sources. -/
def putAll (k : Nat) (_ : List Nat) (v : Nat) : List Nat := List.replicate k v

theorem AllLensed.grow {m : M Nat Nat} (h : AllLensed m) (ps : List Nat) (hne : ps ≠ [])
    (hps : ∀ p ∈ ps, p < m.g.size) (refr : Bool) :
    ∃ m', ustep m (.newCalc true ps addUp (some (putAll ps.length)) refr 0) = some m' ∧ AllLensed m' ∧
      m'.g.size = m.g.size + 1 ∧ (∀ r n, n < m.g.size → m'.g.ways r n = m.g.ways r n) ∧
      ∀ r, r < m.g.size → m'.g.ways r m.g.size = (ps.map (m.g.ways r)).sum := by
  obtain ⟨hr, hm, hl, hp⟩ := h
  have hall : ps.all m.g.valid = true := by
    rw [List.all_eq_true]
    intro p hpp
    unfold Graph.valid
    rw [hl p (hps p hpp), decide_eq_true (hps p hpp)]
    rfl
  have hcw : ps.all m.g.canWrite = true :=
    List.all_eq_true.2 fun p hpp => (hp p (hps p hpp)).canWrite
  generalize hx : (freshNode (.calc addUp (some (putAll ps.length)) refr) ps
    ((addUp (m.g.currents ps)).getD 0) true default default : Node Nat Nat) = x
  have hxp : x.parents = ps := by rw [← hx]; rfl
  have hxk : x.kind = .calc addUp (some (putAll ps.length)) refr := by rw [← hx]; rfl
  have hxa : x.alive = true := by rw [← hx]; rfl
  have e1 : ustep m (.newCalc true ps addUp (some (putAll ps.length)) refr 0) =
      some { m with g := m.g.add x } := by
    unfold ustep
    rw [hm.1, if_neg (by rw [hm.2]; exact Bool.false_ne_true)]
    simp only
    rw [if_pos ⟨hne, hall, fun _ => hcw⟩, ← hx]
  have hr' : Reach { m with g := m.g.add x } := hr.step (.user _ e1)
  have hnew := add_new m.g x (by rw [hxp]; exact hps)
  have hold : ∀ n, n < m.g.size → ((m.g.add x).node n).kind = (m.g.node n).kind ∧
      ((m.g.add x).node n).parents = (m.g.node n).parents ∧
      ((m.g.add x).node n).alive = (m.g.node n).alive := by
    intro n hn
    obtain ⟨k, hk, _⟩ := add_old m.g x (by omega : n ≠ m.g.size)
    rw [hk]
    exact ⟨rfl, rfl, rfl⟩
  have w := (reach_inv hr hm.2).wf
  have hplain : ∀ n, n < m.g.size → Lensed (m.g.add x) n := by
    intro n hn
    have h0 := hp n hn
    clear hne hps hall hcw hx hxp e1 hnew hr'
    induction h0 with
    | @state n hk hpp =>
      exact .state ((hold n hn).1.trans hk) ((hold n hn).2.1.trans hpp)
    | @comp n view put r hk hlen _ ih =>
      refine .comp ((hold n hn).1.trans hk) ?_ ?_
      · rw [(hold n hn).2.1]; exact hlen
      · rw [(hold n hn).2.1]
        exact fun p hpp => ih p hpp (Nat.lt_trans (w.lt n p hpp) hn)
  have w' := (reach_inv hr' hm.2).wf
  have hways : ∀ r n, n < m.g.size → (m.g.add x).ways r n = m.g.ways r n := by
    intro r n
    induction n using Nat.strongRecOn with
    | _ n ih =>
      intro hn
      rw [ways_rec w', ways_rec w]
      dsimp only
      rw [(hold n hn).2.1]
      congr 2
      exact List.map_congr_left fun p hpp =>
        ih p (w.lt n p hpp) (Nat.lt_trans (w.lt n p hpp) hn)
  have hsz := add_size m.g x
  refine ⟨_, e1, ⟨hr', hm, ?_, ?_⟩, hsz, hways, ?_⟩
  · intro n hn
    dsimp only at hn
    rw [hsz] at hn
    unfold M.Live
    dsimp only
    by_cases e : n = m.g.size
    · rw [e, hnew, hxa]
    · rw [(hold n (by omega)).2.2]; exact hl n (by omega)
  · intro n hn
    dsimp only at hn ⊢
    rw [hsz] at hn
    by_cases e : n = m.g.size
    · subst e
      refine .comp (by rw [hnew, hxk]) ?_ ?_
      · intro old v _
        rw [hnew, hxp]
        exact List.length_replicate
      · rw [hnew, hxp]
        exact fun p hpp => hplain p (hps p hpp)
    · exact hplain n (by omega)
  · intro r hrl
    rw [ways_rec w']
    dsimp only
    rw [hnew, hxp, if_neg (by omega), Nat.zero_add]
    congr 1
    exact List.map_congr_left fun p hpp => hways r p (hps p hpp)

theorem stacked (k : Nat) : ∃ m : M Nat Nat, AllLensed m ∧ m.g.size = 3 * k + 1 ∧
    m.g.ways 0 (3 * k) = 2 ^ k := by
  induction k with
  | zero =>
    refine ⟨exec [.newState false true 0] boot, ⟨exec_reach _, ⟨by decide +kernel, by decide +kernel⟩,
      ?_, ?_⟩, by decide +kernel, by decide +kernel⟩
    · intro n hn
      have : n = 0 := by
        have : (exec [.newState false true 0] boot).g.size = 1 := by decide +kernel
        omega
      subst this
      show ((exec [.newState false true 0] boot).g.node 0).alive = true
      decide +kernel
    · intro n hn
      have : n = 0 := by
        have : (exec [.newState false true 0] boot).g.size = 1 := by decide +kernel
        omega
      subst this
      exact .state rfl rfl
  | succ k ih =>
    obtain ⟨m, h, hs, hw⟩ := ih
    obtain ⟨m1, -, h1, s1, o1, n1⟩ := h.grow [3 * k] (by simp) (by simp; omega) true
    obtain ⟨m2, -, h2, s2, o2, n2⟩ := h1.grow [3 * k] (by simp) (by simp; omega) true
    obtain ⟨m3, -, h3, s3, o3, n3⟩ := h2.grow [3 * k + 1, 3 * k + 2] (by simp) (by simp; omega) false
    refine ⟨m3, h3, by omega, ?_⟩
    have e1 : m.g.size = 3 * k + 1 := hs
    have e2 : m1.g.size = 3 * k + 2 := by omega
    have e3 : m2.g.size = 3 * (k + 1) := by omega
    have a1 : m1.g.ways 0 (3 * k + 1) = 2 ^ k := by
      have := n1 0 (by omega)
      rw [e1] at this
      rw [this]
      simp [hw]
    have a2 : m2.g.ways 0 (3 * k + 2) = 2 ^ k := by
      have := n2 0 (by omega)
      rw [e2] at this
      rw [this]
      simp [o1 0 (3 * k) (by omega), hw]
    have a3 := n3 0 (by omega)
    rw [e3] at a3
    rw [a3]
    simp only [List.map_cons, List.map_nil, List.sum_cons, List.sum_nil]
    rw [o2 0 (3 * k + 1) (by omega), a1, a2, Nat.pow_succ]
    omega

/-- C110: that a write gives a value to the state once is false in general: with `k` diamonds of
cursors on top of each other (two cursors zoomed from the same one, and merged), one write to the last
cursor writes to the state `2 ^ k` times. -/
theorem C110_exponential_false (k : Nat) : ∃ m m' : M Nat Nat, ∃ l, Reach m ∧ m.AtRest ∧
    m.g.size = 3 * k + 1 ∧ (m.g.node 0).parents = [] ∧ CallL m (.set (3 * k) 1) l m' ∧
    l.count (.sent 0) = 2 ^ k := by
  obtain ⟨m, h, hs, hw⟩ := stacked k
  have hp := h.plain (3 * k) (by omega)
  have he : ustep m (.set (3 * k) 1) = some { m with stack := .up (3 * k) 1 :: m.stack } := by
    unfold ustep
    rw [if_neg (by rw [h.rest.2]; exact Bool.false_ne_true)]
    simp only [h.rest.1]
    rw [if_pos]
    rw [hp.canWrite, Bool.and_true]
    unfold Graph.valid
    rw [h.live (3 * k) (by omega), decide_eq_true (show 3 * k < m.g.size by omega)]
    rfl
  obtain ⟨⟨l, m', hc⟩, hall⟩ := C110_paths h.reach rfl hp he
  refine ⟨m, m', l, h.reach, h.rest, hs, ?_, hc, by rw [(hall l m' hc).1, hw]⟩
  rw [List.eq_nil_iff_forall_not_mem]
  intro p hpp
  exact Nat.not_lt_zero p ((reach_inv h.reach h.rest.2).wf.lt 0 p hpp)

/-! ### Examples -/

/-- Library code, as far as `fuel` lasts, with the record. -/
def runL : Nat → M Nat Nat → List Job → M Nat Nat × List Job
  | 0, m, l => (m, l)
  | k + 1, m, l =>
    match istep m with
    | none => (m, l)
    | some m' => runL k m' (l ++ m.jobs)

/-- A state and three cursors, each zoomed from the one before. -/
def exZooms : M Nat Nat := exec
  [.newState false true 3, .newCalc true [0] (fun l => some l.sum) (some fun _ v => [v]) true 0,
    .newCalc true [1] (fun l => some l.sum) (some fun _ v => [v]) true 0,
    .newCalc true [2] (fun l => some l.sum) (some fun _ v => [v]) true 0] boot

/-- A write to the last of them computes six values. -/
example : Reach exZooms ∧ exZooms.AtRest ∧
    (runL 20 ((ustep exZooms (.set 3 8)).getD boot) []).2 =
      [.sent 3, .computed 1, .computed 2, .computed 3, .sent 2, .computed 1, .computed 2, .sent 1,
        .computed 1, .sent 0] ∧
    (runL 20 ((ustep exZooms (.set 3 8)).getD boot) []).1.stack = exZooms.stack ∧
    (runL 20 ((ustep exZooms (.set 3 8)).getD boot) []).1.pending 0 = 8 := by
  refine ⟨exec_reach _, ⟨by decide +kernel, by decide +kernel⟩, by decide +kernel, by decide +kernel,
    by decide +kernel⟩

example : Zooms exZooms.g 0 [3, 2, 1] :=
  .cons (view := fun l => some l.sum) (put := fun _ v => [v]) (fun _ v => v) rfl rfl (fun _ _ => rfl)
    (.cons (view := fun l => some l.sum) (put := fun _ v => [v]) (fun _ v => v) rfl rfl
      (fun _ _ => rfl) (.one (view := fun l => some l.sum) (put := fun _ v => [v]) (fun _ v => v) rfl
        rfl rfl fun _ _ => rfl))

/-- Two diamonds: four writes. -/
example : ((runL 60 ((ustep (exec [.newState false true 0, .newCalc true [0] addUp (some (putAll 1)) true 0,
    .newCalc true [0] addUp (some (putAll 1)) true 0, .newCalc true [1, 2] addUp (some (putAll 2)) false 0,
    .newCalc true [3] addUp (some (putAll 1)) true 0, .newCalc true [3] addUp (some (putAll 1)) true 0,
    .newCalc true [4, 5] addUp (some (putAll 2)) false 0] boot) (.set 6 1)).getD boot) []).2.count
      (.sent 0)) = 4 := by decide +kernel

end Verif.Graph
