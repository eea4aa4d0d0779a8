import Verif.Graph.Visits
import Verif.Graph.Exec

/-!
# Stacked diamonds

`k` diamonds on top of each other: the value `3 i` is copied by the readers `3 i + 1` and
`3 i + 2`, and the reader `3 i + 3` is their sum.  One change of the state `0` makes the last
reader compute its value `2 ^ k` times.
-/

namespace Verif.Graph

/-- The function of all the readers: the sum of the sources. -/
def addUp (l : List Nat) : Option Nat := some l.sum

/-- The node is the reader that adds up the nodes `ps`. -/
structure Adds (g : Graph Nat Nat) (n : Nat) (ps : List Nat) : Prop where
  kind : (g.node n).kind = .calc addUp none false
  parents : (g.node n).parents = ps
  alive : (g.node n).alive = true
  cmp : (g.node n).cmp = true

/-- `k` diamonds on top of each other. -/
structure Tower (k : Nat) (g : Graph Nat Nat) : Prop where
  left : ∀ i, i < k → Adds g (3 * i + 1) [3 * i]
  right : ∀ i, i < k → Adds g (3 * i + 2) [3 * i]
  join : ∀ i, i < k → Adds g (3 * i + 3) [3 * i + 1, 3 * i + 2]
  kids : ∀ i, i < k → (g.node (3 * i)).children = [3 * i + 1, 3 * i + 2]
  kidsL : ∀ i, i < k → (g.node (3 * i + 1)).children = [3 * i + 3]
  kidsR : ∀ i, i < k → (g.node (3 * i + 2)).children = [3 * i + 3]
  top : (g.node (3 * k)).children = []

theorem Same.adds {g g' : Graph Nat Nat} (h : Same g g') {n : Nat} {ps : List Nat}
    (a : Adds g n ps) : Adds g' n ps :=
  ⟨by rw [h.kind]; exact a.kind, by rw [h.parents]; exact a.parents,
    by rw [h.alive]; exact a.alive, by rw [h.cmp]; exact a.cmp⟩

theorem Same.tower {g g' : Graph Nat Nat} (h : Same g g') {k : Nat} (t : Tower k g) :
    Tower k g' :=
  ⟨fun i hi => h.adds (t.left i hi), fun i hi => h.adds (t.right i hi),
    fun i hi => h.adds (t.join i hi), fun i hi => by rw [h.children]; exact t.kids i hi,
    fun i hi => by rw [h.children]; exact t.kidsL i hi,
    fun i hi => by rw [h.children]; exact t.kidsR i hi, by rw [h.children]; exact t.top⟩

/-- A node has nothing to publish and its value is `v`. -/
def Has (g : Graph Nat Nat) (n v : Nat) : Prop :=
  (g.node n).current = v ∧ (g.node n).dirty = false

/-- The `d` diamonds above node `3 i` have the values that follow from `u` there. -/
def Follow : Nat → Graph Nat Nat → Nat → Nat → Prop
  | 0, _, _, _ => True
  | d + 1, g, i, u => Has g (3 * i + 1) u ∧ Has g (3 * i + 2) u ∧ Has g (3 * i + 3) (u + u) ∧
      Follow d g (i + 1) (u + u)

theorem Follow.congr {g g' : Graph Nat Nat} : ∀ {d i u : Nat}, Follow d g i u →
    (∀ m, 3 * i < m → g'.node m = g.node m) → Follow d g' i u := by
  intro d
  induction d with
  | zero => intro i u _ _; trivial
  | succ d ih =>
    intro i u h hm
    obtain ⟨h1, h2, h3, h4⟩ := h
    refine ⟨?_, ?_, ?_, ih h4 fun m hlt => hm m (by omega)⟩
    · unfold Has; rw [hm _ (by omega)]; exact h1
    · unfold Has; rw [hm _ (by omega)]; exact h2
    · unfold Has; rw [hm _ (by omega)]; exact h3

/-- What `recompute` does to a reader that adds up. -/
theorem Adds.recompute {g : Graph Nat Nat} {n v w : Nat} {ps : List Nat} (a : Adds g n ps)
    (hv : (g.currents ps).sum = v) (hw : (g.node n).current = w) (hne : v ≠ w) :
    ((g.recompute n).node n).dirty = true ∧ ((g.recompute n).node n).current = v ∧
      ∀ m, m ≠ n → (g.recompute n).node m = g.node m := by
  have h : g.recompute n = g.pushDown n v := by
    unfold Graph.recompute
    rw [a.kind, a.parents]
    simp only [addUp, hv]
  rw [h]
  unfold Graph.pushDown
  rw [if_pos (.inr (by rw [hw]; exact hne))]
  refine ⟨?_, ?_, fun m hm => Graph.mod_ne _ _ hm⟩ <;> rw [Graph.mod_self]

/-- A node with one child, whose value changes. -/
theorem sendDownL_one {f n c v : Nat} {g : Graph Nat Nat}
    (hd : ((g.recompute n).node n).dirty = true) (hv : ((g.recompute n).node n).current = v)
    (hc : (g.node n).children = [c]) (ha : (g.node c).alive = true)
    (ho : ∀ m, m ≠ n → (g.recompute n).node m = g.node m) :
    ∃ g2 : Graph Nat Nat, Graph.sendDownL (f + 1) g n =
      ((Graph.sendDownL f g2 c).1, (n, true) :: (Graph.sendDownL f g2 c).2) ∧
      Same g g2 ∧ Has g2 n v ∧ ∀ m, m ≠ n → g2.node m = g.node m := by
  have hs : Same g ((g.recompute n).publish n) :=
    (recompute_touch g n).same.trans (publish_same _ n)
  refine ⟨(g.recompute n).publish n, ?_, hs, ?_, fun m hm => ?_⟩
  · simp only [Graph.sendDownL]
    rw [if_pos hd, hs.children, hc, List.foldl_cons, List.foldl_nil]
    rw [if_pos (by rw [hs.alive]; exact ha)]
    rfl
  · unfold Has Graph.publish
    rw [Graph.mod_self]
    exact ⟨hv, rfl⟩
  · rw [publish_other _ hm, ho m hm]

/-- The heart of the matter: twice as many visits with every diamond. -/
theorem tower_visits (k : Nat) (d : Nat) : ∀ (i f u v : Nat) (g : Graph Nat Nat), i + d = k →
    Tower k g → Follow d g i u → u ≠ v → 2 * d < f →
    ((g.recompute (3 * i)).node (3 * i)).dirty = true →
    ((g.recompute (3 * i)).node (3 * i)).current = v →
    (∀ m, m ≠ 3 * i → (g.recompute (3 * i)).node m = g.node m) →
    visits (3 * k) (Graph.sendDownL f g (3 * i)).2 = 2 ^ d ∧
      Follow d (Graph.sendDownL f g (3 * i)).1 i v ∧
      Has (Graph.sendDownL f g (3 * i)).1 (3 * i) v ∧
      ∀ m, m < 3 * i → (Graph.sendDownL f g (3 * i)).1.node m = g.node m := by
  induction d with
  | zero =>
    intro i f u v g hik ht _ _ hf hd hv ho
    obtain ⟨f, rfl⟩ : ∃ f', f = f' + 1 := ⟨f - 1, by omega⟩
    have hi : i = k := by omega
    subst hi
    have hs : Same g ((g.recompute (3 * i)).publish (3 * i)) :=
      (recompute_touch g _).same.trans (publish_same _ _)
    simp only [Graph.sendDownL]
    rw [if_pos hd, hs.children, ht.top, List.foldl_nil]
    refine ⟨?_, trivial, ?_, fun m hm => ?_⟩
    · rw [visits_cons]; simp [visits]
    · unfold Has Graph.publish
      rw [Graph.mod_self]
      exact ⟨hv, rfl⟩
    · rw [publish_other _ (by omega), ho m (by omega)]
  | succ d ih =>
    intro i f u v g hik ht hF huv hf hd hv ho
    obtain ⟨f, rfl⟩ : ∃ f', f = f' + 1 + 1 := ⟨f - 2, by omega⟩
    have hi : i < k := by omega
    have hs : Same g ((g.recompute (3 * i)).publish (3 * i)) :=
      (recompute_touch g _).same.trans (publish_same _ _)
    -- after the publication of `3 i`
    generalize hg0 : (g.recompute (3 * i)).publish (3 * i) = g0 at hs
    have h0 : ∀ m, m ≠ 3 * i → g0.node m = g.node m := fun m hm => by
      rw [← hg0, publish_other _ hm, ho m hm]
    have h0v : Has g0 (3 * i) v := by
      rw [← hg0]
      unfold Has Graph.publish
      rw [Graph.mod_self]
      exact ⟨hv, rfl⟩
    have ht0 := hs.tower ht
    obtain ⟨hL, hR, hJ, hF'⟩ := hF.congr (g' := g0) fun m hm => h0 m (by omega)
    -- the left branch
    obtain ⟨r1, r2, r3⟩ := (ht0.left i hi).recompute (v := v) (w := u)
      (by simp [Graph.currents, h0v.1]) hL.1 huv.symm
    obtain ⟨g1, e1, s1, v1, o1⟩ := sendDownL_one (f := f) r1 r2 (ht0.kidsL i hi)
      (ht0.join i hi).alive r3
    have ht1 := s1.tower ht0
    obtain ⟨q1, q2, q3⟩ := (ht1.join i hi).recompute (v := v + u) (w := u + u)
      (by
        have : (g1.node (3 * i + 2)).current = u := by rw [o1 _ (by omega)]; exact hR.1
        simp [Graph.currents, v1.1, this])
      (by rw [o1 _ (by omega)]; exact hJ.1) (by omega)
    obtain ⟨c1, F1, H1, k1⟩ := ih (i + 1) f (u + u) (v + u) g1 (by omega) ht1
      (hF'.congr fun m hm => o1 m (by omega)) (by omega) (by omega) q1 q2 q3
    rw [show 3 * (i + 1) = 3 * i + 3 from by omega] at c1 F1 H1 k1
    have s2 := sendDownL_same f g1 (3 * i + 3)
    -- the right branch
    generalize hg2 : (Graph.sendDownL f g1 (3 * i + 3)).1 = g2 at *
    have ht2 := s2.tower ht1
    have hL2 : Has g2 (3 * i + 1) v := by unfold Has; rw [k1 _ (by omega)]; exact v1
    have hR2 : Has g2 (3 * i + 2) u := by
      unfold Has; rw [k1 _ (by omega), o1 _ (by omega)]; exact hR
    have h02 : Has g2 (3 * i) v := by
      unfold Has; rw [k1 _ (by omega), o1 _ (by omega)]; exact h0v
    obtain ⟨t1, t2, t3⟩ := (ht2.right i hi).recompute (v := v) (w := u)
      (by simp [Graph.currents, h02.1]) hR2.1 huv.symm
    obtain ⟨g3, e3, s3, v3, o3⟩ := sendDownL_one (f := f) t1 t2 (ht2.kidsR i hi)
      (ht2.join i hi).alive t3
    have ht3 := s3.tower ht2
    obtain ⟨q1, q2, q3⟩ := (ht3.join i hi).recompute (v := v + v) (w := v + u)
      (by
        have : (g3.node (3 * i + 1)).current = v := by rw [o3 _ (by omega)]; exact hL2.1
        simp [Graph.currents, v3.1, this])
      (by rw [o3 _ (by omega)]; exact H1.1) (by omega)
    obtain ⟨c2, F2, H2, k2⟩ := ih (i + 1) f (v + u) (v + v) g3 (by omega) ht3
      (F1.congr fun m hm => o3 m (by omega)) (by omega) (by omega) q1 q2 q3
    rw [show 3 * (i + 1) = 3 * i + 3 from by omega] at c2 F2 H2 k2
    -- everything together
    have he : Graph.sendDownL (f + 1 + 1) g (3 * i) =
        ((Graph.sendDownL f g3 (3 * i + 3)).1,
          (3 * i, true) :: ((3 * i + 1, true) :: (Graph.sendDownL f g1 (3 * i + 3)).2 ++
            (3 * i + 2, true) :: (Graph.sendDownL f g3 (3 * i + 3)).2)) := by
      rw [Graph.sendDownL]
      simp only [hg0]
      rw [if_pos hd, ht0.kids i hi]
      simp only [List.foldl_cons, List.foldl_nil]
      rw [if_pos (ht0.left i hi).alive]
      simp only [e1]
      rw [if_pos (ht2.right i hi).alive, e3]
      rfl
    rw [he]
    refine ⟨?_, ⟨?_, ?_, ?_, F2⟩, ?_, fun m hm => ?_⟩
    · rw [visits_cons, visits_append, visits_cons, visits_cons, c1, c2]
      rw [if_neg (by dsimp only; omega), if_neg (by dsimp only; omega),
        if_neg (by dsimp only; omega), Nat.pow_succ]
      omega
    · unfold Has; rw [k2 _ (by omega), o3 _ (by omega)]; exact hL2
    · unfold Has; rw [k2 _ (by omega)]; exact v3
    · exact H2
    · unfold Has; rw [k2 _ (by omega), o3 _ (by omega)]; exact h02
    · dsimp only
      rw [k2 _ (by omega), o3 _ (by omega), k1 _ (by omega), o1 _ (by omega), h0 _ (by omega)]

/-! ### Such graphs can be built -/

/-- What is created by adding a reader that adds up `ps`, when all values are 0. -/
def grown (g : Graph Nat Nat) (ps : List Nat) : Graph Nat Nat :=
  g.add (freshNode (.calc addUp none false) ps 0 true default default)

/-- A graph in which all values are 0. -/
structure Zero (g : Graph Nat Nat) : Prop where
  has : ∀ n, n < g.size → Has g n 0
  alive : ∀ n, n < g.size → (g.node n).alive = true

theorem grown_new (g : Graph Nat Nat) (ps : List Nat) (hp : ∀ p ∈ ps, p < g.size) :
    (grown g ps).node g.size =
      freshNode (.calc addUp none false) ps 0 true default default :=
  add_new g _ hp

theorem grown_old (g : Graph Nat Nat) (ps : List Nat) {n : Nat} (hn : n < g.size) :
    (grown g ps).node n = { g.node n with
      children := (g.node n).children ++ List.replicate (ps.count n) g.size } :=
  add_count g _ (Nat.ne_of_lt hn)

theorem grown_size (g : Graph Nat Nat) (ps : List Nat) : (grown g ps).size = g.size + 1 :=
  add_size g _

theorem grown_zero {g : Graph Nat Nat} (h : Zero g) (ps : List Nat) (hp : ∀ p ∈ ps, p < g.size) :
    Zero (grown g ps) := by
  constructor
  · intro n hn
    rw [grown_size] at hn
    by_cases e : n = g.size
    · subst e; unfold Has; rw [grown_new g ps hp]; exact ⟨rfl, rfl⟩
    · unfold Has; rw [grown_old g ps (by omega)]; exact h.has n (by omega)
  · intro n hn
    rw [grown_size] at hn
    by_cases e : n = g.size
    · subst e; rw [grown_new g ps hp]; rfl
    · rw [grown_old g ps (by omega)]; exact h.alive n (by omega)

theorem grown_adds {g : Graph Nat Nat} {n : Nat} {qs : List Nat} (ps : List Nat)
    (hn : n < g.size) (a : Adds g n qs) : Adds (grown g ps) n qs := by
  constructor <;> rw [grown_old g ps hn]
  · exact a.kind
  · exact a.parents
  · exact a.alive
  · exact a.cmp

theorem grown_self {g : Graph Nat Nat} (ps : List Nat) (hp : ∀ p ∈ ps, p < g.size) :
    Adds (grown g ps) g.size ps := by
  constructor <;> rw [grown_new g ps hp] <;> rfl

theorem grown_step {m : M Nat Nat} (hm : m.AtRest) (hz : Zero m.g) (ps : List Nat)
    (hne : ps ≠ []) (hp : ∀ p ∈ ps, p < m.g.size) :
    ustep m (.newCalc true ps addUp none false 0) = some { m with g := grown m.g ps } := by
  have hv : (m.g.currents ps).sum = 0 := by
    unfold Graph.currents
    induction ps with
    | nil => rfl
    | cons p ps ih =>
      rw [List.map_cons, List.sum_cons, (hz.has p (hp p List.mem_cons_self)).1]
      by_cases h : ps = []
      · subst h; rfl
      · rw [ih h fun q hq => hp q (List.mem_cons_of_mem _ hq)]
  have hall : ps.all m.g.valid = true := by
    rw [List.all_eq_true]
    intro p h
    unfold Graph.valid
    rw [hz.alive p (hp p h), decide_eq_true (hp p h)]
    rfl
  unfold ustep
  rw [hm.1, if_neg (by rw [hm.2]; exact Bool.false_ne_true)]
  simp only
  rw [if_pos ⟨hne, hall, fun h => by cases h⟩]
  simp only [addUp, hv, Option.getD_some]
  rfl

/-- One more diamond. -/
theorem tower_grow {k : Nat} {m : M Nat Nat} (hr : Reach m) (hm : m.AtRest)
    (hs : m.g.size = 3 * k + 1) (hz : Zero m.g) (ht : Tower k m.g)
    (h0 : (m.g.node 0).kind = .state false ∧ (m.g.node 0).cmp = true) :
    ∃ m' : M Nat Nat, Reach m' ∧ m'.AtRest ∧ m'.g.size = 3 * (k + 1) + 1 ∧ Zero m'.g ∧
      Tower (k + 1) m'.g ∧ (m'.g.node 0).kind = .state false ∧ (m'.g.node 0).cmp = true := by
  have hp1 : ∀ p ∈ [3 * k], p < m.g.size := by
    intro p hp; rw [List.mem_singleton.1 hp]; omega
  have s1 := grown_size m.g [3 * k]
  have z1 := grown_zero hz _ hp1
  have hp2 : ∀ p ∈ [3 * k], p < (grown m.g [3 * k]).size := by
    intro p hp; rw [List.mem_singleton.1 hp]; omega
  have s2 := grown_size (grown m.g [3 * k]) [3 * k]
  have z2 := grown_zero z1 _ hp2
  have hp3 : ∀ p ∈ [3 * k + 1, 3 * k + 2],
      p < (grown (grown m.g [3 * k]) [3 * k]).size := by
    intro p hp
    simp only [List.mem_cons, List.not_mem_nil, or_false] at hp
    omega
  have s3 := grown_size (grown (grown m.g [3 * k]) [3 * k]) [3 * k + 1, 3 * k + 2]
  have z3 := grown_zero z2 _ hp3
  have r1 := hr.step (.user _ (grown_step hm hz _ (by simp) hp1))
  have r2 := r1.step (.user _ (grown_step (m := { m with g := grown m.g [3 * k] }) hm z1 _
    (by simp) hp2))
  have r3 := r2.step (.user _ (grown_step
    (m := { m with g := grown (grown m.g [3 * k]) [3 * k] }) hm z2 _ (by simp) hp3))
  -- what becomes of nodes that are there
  have old : ∀ n, n ≤ 3 * k → (grown (grown (grown m.g [3 * k]) [3 * k])
      [3 * k + 1, 3 * k + 2]).node n = { m.g.node n with
        children := (m.g.node n).children ++
          (if n = 3 * k then [3 * k + 1, 3 * k + 2] else []) } := by
    intro n hn
    rw [grown_old _ _ (by omega), grown_old _ _ (by omega), grown_old _ _ (by omega)]
    have c3 : [3 * k + 1, 3 * k + 2].count n = 0 := by
      rw [List.count_eq_zero]
      simp only [List.mem_cons, List.not_mem_nil, or_false]
      omega
    rw [c3]
    by_cases e : n = 3 * k
    · subst e
      simp [hs, s1]
    · have c1 : [3 * k].count n = 0 := by
        rw [List.count_eq_zero, List.mem_singleton]; exact e
      rw [c1, if_neg e]
      simp
  have oldA : ∀ n qs, n ≤ 3 * k → Adds m.g n qs → Adds (grown (grown (grown m.g [3 * k])
      [3 * k]) [3 * k + 1, 3 * k + 2]) n qs := by
    intro n qs hn a
    exact grown_adds _ (by omega) (grown_adds _ (by omega) (grown_adds _ (by omega) a))
  have a1 : Adds (grown m.g [3 * k]) (3 * k + 1) [3 * k] := by
    have := grown_self [3 * k] hp1
    rw [hs] at this
    exact this
  have a2 : Adds (grown (grown m.g [3 * k]) [3 * k]) (3 * k + 2) [3 * k] := by
    have := grown_self [3 * k] hp2
    rw [s1, hs] at this
    exact this
  have a3 : Adds (grown (grown (grown m.g [3 * k]) [3 * k]) [3 * k + 1, 3 * k + 2]) (3 * k + 3)
      [3 * k + 1, 3 * k + 2] := by
    have := grown_self [3 * k + 1, 3 * k + 2] hp3
    rw [s2, s1, hs] at this
    exact this
  have kidL : ((grown (grown (grown m.g [3 * k]) [3 * k]) [3 * k + 1, 3 * k + 2]).node
      (3 * k + 1)).children = [3 * k + 3] := by
    rw [grown_old _ _ (by omega), grown_old _ _ (by omega)]
    have := grown_new m.g [3 * k] hp1
    rw [hs] at this
    rw [this, s2, s1, hs]
    have c1 : [3 * k].count (3 * k + 1) = 0 := by
      rw [List.count_eq_zero, List.mem_singleton]; omega
    rw [c1]
    simp [freshNode]
  have kidR : ((grown (grown (grown m.g [3 * k]) [3 * k]) [3 * k + 1, 3 * k + 2]).node
      (3 * k + 2)).children = [3 * k + 3] := by
    rw [grown_old _ _ (by omega)]
    have := grown_new (grown m.g [3 * k]) [3 * k] hp2
    rw [s1, hs] at this
    rw [this, s2, s1, hs]
    simp [freshNode]
  refine ⟨_, r3, hm, ?_, z3, ?_, ?_⟩
  · dsimp only
    omega
  · dsimp only
    refine ⟨fun i hi => ?_, fun i hi => ?_, fun i hi => ?_, fun i hi => ?_, fun i hi => ?_,
      fun i hi => ?_, ?_⟩
    · by_cases e : i = k
      · subst e; exact grown_adds _ (by omega) (grown_adds _ (by omega) a1)
      · exact oldA _ _ (by omega) (ht.left i (by omega))
    · by_cases e : i = k
      · subst e; exact grown_adds _ (by omega) a2
      · exact oldA _ _ (by omega) (ht.right i (by omega))
    · by_cases e : i = k
      · subst e; exact a3
      · exact oldA _ _ (by omega) (ht.join i (by omega))
    · by_cases e : i = k
      · subst e; rw [old _ (Nat.le_refl _), if_pos rfl]; dsimp only; rw [ht.top]; rfl
      · rw [old _ (by omega), if_neg (by omega)]; dsimp only; rw [ht.kids i (by omega)]; rfl
    · by_cases e : i = k
      · subst e; exact kidL
      · rw [old _ (by omega), if_neg (by omega)]; dsimp only; rw [ht.kidsL i (by omega)]; rfl
    · by_cases e : i = k
      · subst e; exact kidR
      · rw [old _ (by omega), if_neg (by omega)]; dsimp only; rw [ht.kidsR i (by omega)]; rfl
    · have := grown_new (grown (grown m.g [3 * k]) [3 * k]) [3 * k + 1, 3 * k + 2] hp3
      rw [s2, s1, hs] at this
      rw [show 3 * (k + 1) = 3 * k + 1 + 1 + 1 from by omega, this]
      rfl
  · dsimp only
    rw [old 0 (by omega)]
    exact h0

theorem tower_exists (k : Nat) :
    ∃ m : M Nat Nat, Reach m ∧ m.AtRest ∧ m.g.size = 3 * k + 1 ∧ Zero m.g ∧
      Tower k m.g ∧ (m.g.node 0).kind = .state false ∧ (m.g.node 0).cmp = true := by
  induction k with
  | zero =>
    refine ⟨exec [.newState false true 0] boot, exec_reach _,
      ⟨by decide +kernel, by decide +kernel⟩, by decide +kernel, ⟨?_, ?_⟩, ?_, rfl, rfl⟩
    · intro n hn
      have : n = 0 := by
        have : (exec [.newState false true 0] boot).g.size = 1 := by decide +kernel
        omega
      subst this
      exact ⟨by decide +kernel, by decide +kernel⟩
    · intro n hn
      have : n = 0 := by
        have : (exec [.newState false true 0] boot).g.size = 1 := by decide +kernel
        omega
      subst this
      decide +kernel
    · exact ⟨fun i hi => absurd hi (Nat.not_lt_zero i), fun i hi => absurd hi (Nat.not_lt_zero i),
        fun i hi => absurd hi (Nat.not_lt_zero i), fun i hi => absurd hi (Nat.not_lt_zero i),
        fun i hi => absurd hi (Nat.not_lt_zero i), fun i hi => absurd hi (Nat.not_lt_zero i),
        by decide +kernel⟩
  | succ k ih =>
    obtain ⟨m, hr, hm, hs, hz, ht, h0⟩ := ih
    exact tower_grow hr hm hs hz ht h0

theorem zero_follow {k : Nat} {g : Graph Nat Nat} (hs : g.size = 3 * k + 1) (hz : Zero g) :
    ∀ d i, i + d = k → Follow d g i 0 := by
  intro d
  induction d with
  | zero => intro i _; trivial
  | succ d ih =>
    intro i hi
    exact ⟨hz.has _ (by omega), hz.has _ (by omega), hz.has _ (by omega), ih (i + 1) (by omega)⟩

end Verif.Graph
