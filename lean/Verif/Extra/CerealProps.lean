import Verif.Extra.CerealLemmas

/-!
Properties of serialisation: C71, C76.
-/

namespace Verif.Extra

variable {P A K : Type}

/-- `==` of a type is equality. -/
def Exact (c : Codec P A) : Prop := ∀ x y, c.eq x y → x = y

/-- The types that can be serialised: primitive types, and what can be made of them by nesting containers.  Keys and
elements of sets must be types of which equal values are the same, the id of an element must be the same for equal
elements, and the alternatives of a variant must have distinct names. -/
inductive Serial : {A : Type} → Codec P A → Prop
  | prim {A : Type} {inj : A → P} {proj : P → Option A} (h : ∀ x, proj (inj x) = some x) (junk : A) :
    Serial (prim inj proj junk)
  | mono : Serial mono
  | seq {A : Type} {c : Codec P A} : Serial c → Serial (seq c)
  | box {A : Type} {c : Codec P A} : Serial c → Serial (box c)
  | boxSeq {A : Type} {c : Codec P A} : Serial c → Serial (boxSeq c)
  | map {A K : Type} [DecidableEq K] (I : MapImpl K A) {ck : Codec P K} {c : Codec P A} : Serial ck → Exact ck →
    Serial c → Serial (map I ck c)
  | idMap {A K : Type} [DecidableEq K] (I : MapImpl K A) {id : A → K} {c : Codec P A} : Serial c →
    (∀ x y, c.eq x y → id x = id y) → Serial (idMap I id c)
  | set {K : Type} [DecidableEq K] (I : SetImpl K) {ck : Codec P K} : Serial ck → Exact ck → Serial (set I ck)
  | tuple {l : List (Any P)} : (∀ a ∈ l, Serial a.c) → Serial (tuple l)
  | struct (opt : Bool) {l : List (String × Any P)} : (∀ a ∈ l, Serial a.2.c) → Serial (struct opt l)
  | variant {cs : Codec P String} {a : String × Any P} {l : List (String × Any P)} : Serial cs → (∀ s, cs.valid s) →
    Exact cs → (∀ b ∈ a :: l, Serial b.2.c) → ((a :: l).map (·.1)).Nodup → Serial (variant cs a l)

theorem Serial.loads {c : Codec P A} (hc : Serial c) (k : Kind) : Loads k c := by
  induction hc with
  | prim h junk => exact loads_prim k h junk
  | mono => exact loads_mono k
  | seq _ ih => exact loads_seq ih
  | box _ ih => exact loads_box ih
  | boxSeq _ ih => exact loads_boxSeq ih
  | map I _ he _ ihk ih => exact loads_map I ihk ih he
  | idMap I _ he ih => exact loads_idMap I ih he
  | set I _ he ih => exact loads_set I ih he
  | tuple _ ih => exact loads_tuple ih
  | struct opt _ ih => exact loads_struct ih
  | variant _ hv he _ hd ihs ih => exact loads_variant ihs hv he ih hd

/-- For the examples: an association list. -/
def assoc (K A : Type) [DecidableEq K] : MapImpl K A where
  M := { l : List (K × A) // (l.map (·.1)).Nodup }
  empty := ⟨[], .nil⟩
  set m k x := ⟨(k, x) :: m.1.filter (fun e => e.1 ≠ k), by
    rw [List.map_cons, List.nodup_cons]
    constructor
    · intro h
      obtain ⟨e, he, hk⟩ := List.mem_map.mp h
      have := (List.mem_filter.mp he).2
      simp at this
      exact this hk
    · exact List.Nodup.sublist (List.Sublist.map _ List.filter_sublist) m.2⟩
  get m k := (m.1.find? (fun e => e.1 = k)).map (·.2)
  entries m := m.1
  nodup m := m.2
  mem_entries := by
    rintro ⟨l, hl⟩ k x
    simp only
    induction l with
    | nil => simp
    | cons e es ih =>
      rw [List.map_cons, List.nodup_cons] at hl
      rw [List.find?_cons, List.mem_cons]
      by_cases he : e.1 = k
      · simp only [he, decide_true, Option.map_some, Option.some.injEq]
        constructor
        · rintro (h | h)
          · rw [← h]
          · exact absurd (List.mem_map.mpr ⟨_, h, he.symm⟩) hl.1
        · intro h
          exact .inl (by rw [← he, ← h])
      · simp only [he, decide_false]
        rw [← ih hl.2]
        constructor
        · rintro (h | h)
          · exact absurd (by rw [← h]) he
          · exact h
        · exact .inr
  get_empty _ := rfl
  get_set := by
    rintro ⟨l, hl⟩ k x k'
    simp only [List.find?_cons]
    by_cases h : k' = k
    · simp [h]
    · have h' : ¬ k = k' := fun e => h e.symm
      simp only [h', decide_false, h, if_false]
      congr 1
      induction l with
      | nil => rfl
      | cons e es ih =>
        rw [List.map_cons, List.nodup_cons] at hl
        rw [List.filter_cons]
        by_cases he : e.1 = k
        · have : ¬ e.1 = k' := fun e' => h (by rw [← e', he])
          simp only [he, ne_eq, not_true, decide_false, Bool.false_eq_true, if_false]
          rw [ih hl.2, List.find?_cons]
          simp only [this, decide_false]
        · simp only [ne_eq, he, not_false_iff, decide_true, if_true]
          rw [List.find?_cons, List.find?_cons, ih hl.2]

/-- For the examples: a list without duplicates. -/
def listSet (K : Type) [DecidableEq K] : SetImpl K where
  M := { l : List K // l.Nodup }
  empty := ⟨[], .nil⟩
  insert m x := ⟨if x ∈ m.1 then m.1 else x :: m.1, by
    split
    · exact m.2
    · next h => exact List.nodup_cons.mpr ⟨h, m.2⟩⟩
  mem m x := x ∈ m.1
  elems m := m.1
  nodup m := m.2
  mem_elems _ _ := Iff.rfl
  mem_empty _ := by simp
  mem_insert := by
    rintro ⟨l, hl⟩ k k'
    show k' ∈ (if k ∈ l then l else k :: l) ↔ k' = k ∨ k' ∈ l
    split
    · next h =>
      constructor
      · exact .inr
      · rintro (rfl | h')
        · exact h
        · exact h'
    · simp

/-- C71: what was saved loads back, into an object just made, without an exception: the value loaded is equal to the one
saved.  This holds for all types, however nested, and all archives. -/
theorem C71_loads {c : Codec P A} (hc : Serial c) (k : Kind) {t v : A} (ht : c.init t) (hv : c.valid v) :
    ∃ v', c.load k t (c.save v) = (v', none) ∧ c.eq v' v := (hc.loads k).2 t v ht hv

/-- C71: the same with `to_json` and `from_json`. -/
theorem C71_json {c : Codec P A} (hc : Serial c) {zero v : A} (hz : c.init zero) (hv : c.valid v) :
    ∃ v', c.fromTo zero v = (v', none) ∧ c.eq v' v := (hc.loads .json).2 zero v hz hv

/-- C71: a variable that is declared without an initializer is such an object. -/
theorem C71_fresh {c : Codec P A} (hc : Serial c) : c.init c.fresh := (hc.loads .json).1

/-- Archives of numbers and strings. -/
abbrev ExP := Nat ⊕ String

def exNat : Codec ExP Nat := prim .inl (fun p => match p with
  | .inl n => some n
  | .inr _ => none) 999

def exStr : Codec ExP String := prim .inr (fun p => match p with
  | .inl _ => none
  | .inr s => some s) ""

theorem exNat_serial : Serial exNat := by
  unfold exNat
  refine .prim ?_ _
  intro x
  rfl

theorem exStr_serial : Serial exStr := by
  unfold exStr
  refine .prim ?_ _
  intro x
  rfl

/-- A vector of structs with a map of boxes, a set, and a variant. -/
def exFields : List (String × Any ExP) :=
  [("name", ⟨_, exStr⟩), ("scores", ⟨_, map (assoc String (Box Nat)) exStr (box exNat)⟩),
   ("tags", ⟨_, set (listSet Nat) exNat⟩),
   ("kind", ⟨_, variant exStr ("monostate", ⟨_, mono⟩) [("int", ⟨_, exNat⟩), ("pair", ⟨_, tuple [⟨_, exNat⟩, ⟨_, exStr⟩]⟩)]⟩)]

def exDocs := seq (struct true exFields)

theorem exDocs_serial : Serial exDocs := by
  refine .seq (.struct _ fun a ha => ?_)
  simp only [exFields, List.mem_cons, List.not_mem_nil, or_false] at ha
  rcases ha with rfl | rfl | rfl | rfl
  · exact exStr_serial
  · exact .map _ exStr_serial (fun _ _ h => h) (.box exNat_serial)
  · exact .set _ exNat_serial fun _ _ h => h
  · refine .variant exStr_serial (fun _ => trivial) (fun _ _ h => h) (fun b hb => ?_) (by decide)
    simp only [List.mem_cons, List.not_mem_nil, or_false] at hb
    rcases hb with rfl | rfl | rfl
    · exact .mono
    · exact exNat_serial
    · refine .tuple fun a ha => ?_
      simp only [List.mem_cons, List.not_mem_nil, or_false] at ha
      rcases ha with rfl | rfl
      · exact exNat_serial
      · exact exStr_serial

def exOne : Fields exFields :=
  ("a", ⟨[("x", ⟨1⟩), ("y", ⟨2⟩)], by decide⟩, ⟨[3, 4], by decide⟩, .inr (.inr (.inl (7, "z", ()))), ())

example : Serial exDocs ∧ exDocs.init exDocs.fresh ∧ exDocs.valid [exOne, exOne] := by
  refine ⟨exDocs_serial, C71_fresh exDocs_serial, ?_⟩
  intro x hx
  simp only [List.mem_cons, List.not_mem_nil, or_false, or_self] at hx
  subst hx
  exact ⟨trivial, fun _ _ _ => ⟨trivial, trivial⟩, fun _ _ => trivial, ⟨trivial, trivial, trivial⟩, trivial⟩

/-- C71: loading a sequence replaces what the target holds unless the sequence is empty: then the target keeps it. -/
theorem C71_sequence_target {c : Codec P A} (hc : Serial c) (k : Kind) {l : List A} (hl : ∀ x ∈ l, c.valid x)
    (t : List A) :
    ((seq c).load k t ((seq c).save [])) = (t, none) ∧
    (l ≠ [] → ∃ l', (seq c).load k t ((seq c).save l) = (l', none) ∧ Pointwise c.eq l' l) := by
  constructor
  · obtain ⟨l', h, _⟩ := seq_load (hc.loads k) (l := []) (by simp) t
    exact h
  · intro hne
    obtain ⟨l', h, h'⟩ := seq_load (hc.loads k) hl t
    exact ⟨l', by rw [h, if_neg hne], h'⟩

/-- C71: so an empty sequence does not load back into a target that is not empty. -/
theorem C71_sequence_false : ∃ t : List Nat, (seq exNat).load .json t ((seq exNat).save []) = ([5], none) :=
  ⟨[5], rfl⟩

/-- C71: boxes, vectors of boxes that are not empty, and variants load back into any target. -/
theorem C71_box_target {c : Codec P A} (hc : Serial c) (k : Kind) {b : Box A} (hb : c.valid b.get) (t : Box A)
    {l : List (Box A)} (hl : ∀ x ∈ l, c.valid x.get) (hne : l ≠ []) (t' : List (Box A)) :
    (∃ x, (box c).load k t ((box c).save b) = (⟨x⟩, none) ∧ c.eq x b.get) ∧
    ∃ l', (boxSeq c).load k t' ((boxSeq c).save l) = (l', none) ∧ Pointwise (fun b b' => c.eq b.get b'.get) l' l := by
  refine ⟨box_load (hc.loads k) hb t, ?_⟩
  obtain ⟨l', h, h'⟩ := boxSeq_load (hc.loads k) hl t'
  exact ⟨l', by rw [h, if_neg hne], h'⟩

theorem C71_variant_target {cs : Codec P String} {a : String × Any P} {l : List (String × Any P)} (k : Kind)
    (hs : Serial cs) (hsv : ∀ s, cs.valid s) (hse : Exact cs) (h : ∀ b ∈ a :: l, Serial b.2.c)
    (hd : ((a :: l).map (·.1)).Nodup) {v : Alt (a :: l)} (hv : Alt.valid (a :: l) v) (t : Alt (a :: l)) :
    ∃ v', (variant cs a l).load k t ((variant cs a l).save v) = (v', none) ∧ Alt.eq (a :: l) v' v :=
  variant_load (hs.loads k) hsv hse (fun b hb => (h b hb).loads k) hd hv t

section maps
variable [DecidableEq K]

/-- What a map that is loaded into a target leaves there: all that was saved, and all other keys of the target. -/
def Merged (I : MapImpl K A) (eq : A → A → Prop) (m t m' : I.M) : Prop :=
  ∀ key, (∀ x, I.get m key = some x → ∃ x', I.get m' key = some x' ∧ eq x' x) ∧
    (I.get m key = none → I.get m' key = I.get t key)

theorem merged_target (I : MapImpl K A) {eq : A → A → Prop} {item : Node P → Except Err (K × A)} (k : Kind) (t m : I.M)
    {ns : List (Option String × Node P)} (hi : Items eq item (I.entries m) ns) :
    ∃ m', Merged I eq m t m' ∧
      ((∀ key x, I.get t key = some x → ∃ x, I.get m key = some x) →
        loadMapAll I item k t (.node (some (I.size m)) ns) = (m', none) ∧ I.Same eq m' m) ∧
      (¬ (∀ key x, I.get t key = some x → ∃ x, I.get m key = some x) →
        loadMapAll I item k t (.node (some (I.size m)) ns) = (m', some (.runtime "duplicate ids?"))) := by
  obtain ⟨m', h1, h2, h3⟩ := loadMapAll_ok I k t m hi
  have hsub : ∀ k x, I.get m k = some x → ∃ x', I.get m' k = some x' := fun k x hx => by
    obtain ⟨x', h, _⟩ := (h1 k).1 x hx
    exact ⟨x', h⟩
  refine ⟨m', h1, fun ht => ⟨Prod.ext h2 ?_, same_of I fun key => ⟨(h1 key).1, fun h => ?_⟩⟩, fun ht => Prod.ext h2 ?_⟩
  · rw [h3, if_neg]
    refine not_not_intro ((size_eq_iff I hsub).mpr fun k x hx => ?_)
    cases hm : I.get m k with
    | some y => exact ⟨y, rfl⟩
    | none =>
      rw [(h1 k).2 hm] at hx
      obtain ⟨y, hy⟩ := ht k x hx
      rw [hm] at hy
      cases hy
  · rw [(h1 key).2 h]
    cases hg : I.get t key with
    | none => rfl
    | some x =>
      obtain ⟨y, hy⟩ := ht key x hg
      rw [h] at hy
      cases hy
  · rw [h3, if_pos]
    intro he
    refine ht fun k x hx => ?_
    cases hm : I.get m k with
    | some y => exact ⟨y, rfl⟩
    | none =>
      rw [← (h1 k).2 hm] at hx
      obtain ⟨y, hy⟩ := (size_eq_iff I hsub).mp he k x hx
      rw [hm] at hy
      cases hy

/-- C71: loading a map into any target merges what is loaded with what is there.  If the target has no other keys the
map loads back, else an exception is thrown, and the target is left merged. -/
theorem C71_map_target (I : MapImpl K A) {ck : Codec P K} {c : Codec P A} (hk : Serial ck) (he : Exact ck) (hc : Serial c)
    (k : Kind) {m : I.M} (hm : (map I ck c).valid m) (t : I.M) :
    ∃ m', Merged I c.eq m t m' ∧
      ((∀ key x, I.get t key = some x → ∃ x, I.get m key = some x) →
        (map I ck c).load k t ((map I ck c).save m) = (m', none) ∧ I.Same c.eq m' m) ∧
      (¬ (∀ key x, I.get t key = some x → ∃ x, I.get m key = some x) →
        (map I ck c).load k t ((map I ck c).save m) = (m', some (.runtime "duplicate ids?"))) :=
  merged_target I k t m (map_items I (hk.loads k) (hc.loads k) he hm)

/-- C71: the same for maps with automatic ids. -/
theorem C71_id_map_target (I : MapImpl K A) {id : A → K} {c : Codec P A} (hc : Serial c)
    (hid : ∀ x y, c.eq x y → id x = id y) (k : Kind) {m : I.M} (hm : (idMap I id c).valid m) (t : I.M) :
    ∃ m', Merged I c.eq m t m' ∧
      ((∀ key x, I.get t key = some x → ∃ x, I.get m key = some x) →
        (idMap I id c).load k t ((idMap I id c).save m) = (m', none) ∧ I.Same c.eq m' m) ∧
      (¬ (∀ key x, I.get t key = some x → ∃ x, I.get m key = some x) →
        (idMap I id c).load k t ((idMap I id c).save m) = (m', some (.runtime "duplicate ids?"))) :=
  merged_target I k t m (idMap_items I (hc.loads k) hid hm)

/-- C71: and for sets. -/
theorem C71_set_target (I : SetImpl K) {ck : Codec P K} (hk : Serial ck) (he : Exact ck) (k : Kind) {m : I.M}
    (hm : ∀ x, I.mem m x → ck.valid x) (t : I.M) :
    ∃ m', (∀ x, I.mem m' x ↔ I.mem m x ∨ I.mem t x) ∧
      ((∀ x, I.mem t x → I.mem m x) → (set I ck).load k t ((set I ck).save m) = (m', none)) ∧
      (¬ (∀ x, I.mem t x → I.mem m x) →
        (set I ck).load k t ((set I ck).save m) = (m', some (.runtime "duplicate items?"))) :=
  set_load I (hk.loads k) he hm t

end maps

/-- C71: so maps do not load back into a target that is not empty. -/
theorem C71_map_false : ∃ t m : (assoc Nat Nat).M, ∃ m', (assoc Nat Nat).entries t = [(1, 10)] ∧
    (assoc Nat Nat).entries m = [(2, 20)] ∧
    (map (assoc Nat Nat) exNat exNat).load .json t ((map (assoc Nat Nat) exNat exNat).save m) =
      (m', some (.runtime "duplicate ids?")) ∧ (assoc Nat Nat).entries m' = [(2, 20), (1, 10)] :=
  ⟨⟨[(1, 10)], by decide⟩, ⟨[(2, 20)], by decide⟩, _, rfl, rfl, rfl, rfl⟩

/-- C71: and a map with automatic ids with an element under a key that is not its id loads to another map. -/
theorem C71_id_false : ∃ m m' : (assoc Nat Nat).M, (assoc Nat Nat).entries m = [(2, 20)] ∧
    (idMap (assoc Nat Nat) (fun x => x / 2) exNat).load .json (assoc Nat Nat).empty
      ((idMap (assoc Nat Nat) (fun x => x / 2) exNat).save m) = (m', none) ∧ (assoc Nat Nat).entries m' = [(10, 20)] :=
  ⟨⟨[(2, 20)], by decide⟩, _, rfl, rfl, rfl⟩

example : (map (assoc Nat Nat) exNat exNat).valid ⟨[(2, 20)], by decide⟩ ∧
    (idMap (assoc Nat Nat) (fun x => x / 2) exNat).valid ⟨[(10, 20)], by decide⟩ := by
  refine ⟨fun _ _ _ => ⟨trivial, trivial⟩, fun k x h => ⟨?_, trivial⟩⟩
  have h := ((assoc Nat Nat).mem_entries _ k x).mpr h
  have h : (k, x) ∈ [(10, 20)] := h
  simp only [List.mem_cons, List.not_mem_nil, or_false, Prod.mk.injEq] at h
  rw [h.1, h.2]

/-- C71: a document with two elements with the same key is rejected. -/
theorem C71_duplicates [DecidableEq K] (I : MapImpl K A) (item : Node P → Except Err (K × A)) (k : Kind) {t : I.M}
    (ht : ∀ k, I.get t k = none) {es : List (K × A)} {ns : List (Option String × Node P)} (hi : Items Eq item es ns)
    (hd : ¬ (es.map (·.1)).Nodup) :
    (loadMapAll I item k t (.node (some es.length) ns)).2 = some (.runtime "duplicate ids?") := by
  have hlen : ∀ (es : List (K × A)) ns, Items Eq item es ns → es.length = ns.length := by
    intro es
    induction es with
    | nil => intro ns h; cases ns with
      | nil => rfl
      | cons => cases h
    | cons e es ih => intro ns h; cases ns with
      | nil => cases h
      | cons n ns => rw [List.length_cons, List.length_cons, ih ns h.2]
  obtain ⟨m', h1, h2⟩ := loadMap_keys I es ns hi ⟨ns, 0⟩ t rfl
  unfold loadMapAll
  rw [size_node k ns es.length (hlen _ _ hi)]
  simp only [(front_start _ _).1, h1]
  rw [if_pos]
  intro he
  apply hd
  have hs : (I.entries m').map (·.1) ⊆ es.map (·.1) := by
    intro key hk
    obtain ⟨x, hx⟩ := (mem_keys I m' key).mp hk
    rcases h2 key x hx with h | h
    · exact h
    · rw [ht] at h; cases h
  exact (perm_of_length (I.nodup m') hs (by
    rw [List.length_map, List.length_map, he]; exact Nat.le_refl _)).nodup (I.nodup m')

example : Items (K := Nat) (A := Nat) Eq (loadItem exNat exNat .json) [(1, 10), (1, 20)]
    [(none, .node none [(some "key", .leaf (.inl 1)), (some "value", .leaf (.inl 10))]),
     (none, .node none [(some "value", .leaf (.inl 20)), (some "key", .leaf (.inl 1))])] ∧
    ¬ (([(1, 10), (1, 20)] : List (Nat × Nat)).map (·.1)).Nodup :=
  ⟨⟨⟨10, rfl, rfl⟩, ⟨20, rfl, rfl⟩, trivial⟩, by decide⟩

/-- C71: if loading a sequence, a box or a variant throws, the target is left as it was. -/
theorem C71_throws_keeps (c : Codec P A) (k : Kind) (n : Node P) (e : Err) :
    (∀ t, ((seq c).load k t n).2 = some e → ((seq c).load k t n).1 = t) ∧
    (∀ t, ((box c).load k t n).2 = some e → ((box c).load k t n).1 = t) ∧
    (∀ t, ((boxSeq c).load k t n).2 = some e → ((boxSeq c).load k t n).1 = t) ∧
    ∀ (cs : Codec P String) a l t, ((variant cs a l).load k t n).2 = some e → ((variant cs a l).load k t n).1 = t := by
  have hseq : ∀ t, ((seq c).load k t n).2 = some e → ((seq c).load k t n).1 = t := by
    intro t
    simp only [seq]
    split
    · exact fun _ => rfl
    · split
      · intro h; cases h
      · exact fun _ => rfl
    · exact fun _ => rfl
    · exact fun _ => rfl
  refine ⟨hseq, fun t => ?_, fun t => ?_, fun cs a l t => ?_⟩
  · simp only [box]
    split
    · split
      · intro h; cases h
      · exact fun _ => rfl
    · exact fun _ => rfl
  · simp only [boxSeq]
    split
    · intro h; cases h
    · exact fun _ => rfl
  · simp only [variant]
    split
    · split
      · split
        · intro h; cases h
        · exact fun _ => rfl
      · exact fun _ => rfl
    · exact fun _ => rfl

example : (seq exNat).load .json [1, 2] (.node none [(none, .leaf (.inl 5)), (none, .leaf (.inr "x"))]) =
    ([1, 2], some .archive) := rfl

/-- Specification of C76: each member has been loaded from the child with its name, if there is one, and is what it was,
if there is none. -/
def Given (ch : List (Option String × Node P)) : (l : List (String × Any P)) → Fields l → Fields l → Prop
  | [], _, _ => True
  | f :: fs, t, v =>
    (match child ch f.1 with
      | some n => f.2.c.load .json t.1 n = (v.1, none)
      | none => v.1 = t.1) ∧ Given ch fs t.2 v.2

/-- C76: a struct is loaded from any JSON object with distinct names: each member from the child with its name, wherever
it is; members without one keep what the target holds; other children are ignored. -/
theorem C76_members {l : List (String × Any P)} {ch : List (Option String × Node P)} (hd : (ch.filterMap (·.1)).Nodup)
    (s : Option Nat) {t v : Fields l} (h : Given ch l t v) : (struct true l).load .json t (.node s ch) = (v, none) := by
  show Fields.load true .json l t ⟨ch, 0⟩ = (v, none)
  generalize 0 = i
  induction l generalizing i with
  | nil => rfl
  | cons f fs ih =>
    obtain ⟨h1, h2⟩ := h
    rw [Fields.load]
    rcases named_child hd i f.1 with ⟨hc, _, hn⟩ | ⟨n, j, hc, hnm, hn⟩
    · rw [hc] at h1
      simp only at h1
      rw [hn]
      simp only [Bool.not_false, Bool.and_true, beq_self_eq_true, if_true, ih h2, ← h1]
      rfl
    · rw [hc] at h1
      simp only at h1
      rw [hn, hnm]
      simp only [Bool.not_true, Bool.and_false, Bool.false_eq_true, if_false, h1, ih h2]
      rfl

/-- C76: the order of the children does not matter, nor do children with names that are no members, also for whether an
exception is thrown and for what the target holds then. -/
theorem C76_order {l : List (String × Any P)} {ch ch' : List (Option String × Node P)} (hd : (ch.filterMap (·.1)).Nodup)
    (hd' : (ch'.filterMap (·.1)).Nodup) (h : ∀ f ∈ l, child ch f.1 = child ch' f.1) (s s' : Option Nat) (t : Fields l) :
    (struct true l).load .json t (.node s ch) = (struct true l).load .json t (.node s' ch') := by
  suffices h' : ∀ i j, Fields.load true .json l t ⟨ch, i⟩ = Fields.load true .json l t ⟨ch', j⟩ from h' 0 0
  induction l with
  | nil => exact fun _ _ => rfl
  | cons f fs ih =>
    intro i j
    have ih := ih (fun f hf => h f (by simp [hf])) t.2
    have hf := h f (by simp)
    rw [Fields.load, Fields.load]
    rcases named_child hd i f.1 with ⟨hc, _, hn⟩ | ⟨n, i', hc, hnm, hn⟩ <;>
    rcases named_child hd' j f.1 with ⟨hc', _, hn'⟩ | ⟨n', j', hc', hnm', hn'⟩
    · rw [hn, hn']
      simp only [Bool.not_false, Bool.and_true, beq_self_eq_true, if_true, ih i j]
    · rw [hc, hc'] at hf; cases hf
    · rw [hc, hc'] at hf; cases hf
    · rw [hc, hc'] at hf
      cases hf
      rw [hn, hn', hnm, hnm']
      simp only [Bool.not_true, Bool.and_false, Bool.false_eq_true, if_false, ih i' j']

example : Given (P := ExP) [(some "b", .leaf (.inl 7)), (some "z", .leaf (.inr "?"))]
    [("a", ⟨_, exNat⟩), ("b", ⟨_, exNat⟩)] (1, 2, ()) (1, 7, ()) ∧
    ((([(some "b", .leaf (.inl 7)), (some "z", .leaf (.inr "?"))] : List (Option String × Node ExP))).filterMap (·.1)).Nodup :=
  ⟨⟨rfl, rfl, trivial⟩, by decide⟩

/-- Specification of C76 for members that are not optional: each member has been loaded from the child with its name. -/
def GivenAll (k : Kind) (ch : List (Option String × Node P)) : (l : List (String × Any P)) → Fields l → Fields l → Prop
  | [], _, _ => True
  | f :: fs, t, v => (∃ n, child ch f.1 = some n ∧ f.2.c.load k t.1 n = (v.1, none)) ∧ GivenAll k ch fs t.2 v.2

/-- C76: the same for other archives with names and for derived serialisation, if there is a child for every member. -/
theorem C76_derived {l : List (String × Any P)} {ch : List (Option String × Node P)} (hd : (ch.filterMap (·.1)).Nodup)
    (s : Option Nat) {t v : Fields l} {k : Kind} (hk : k ≠ .binary) (opt : Bool) (h : GivenAll k ch l t v) :
    (struct opt l).load k t (.node s ch) = (v, none) := by
  show Fields.load opt k l t ⟨ch, 0⟩ = (v, none)
  generalize 0 = i
  induction l generalizing i with
  | nil => rfl
  | cons f fs ih =>
    obtain ⟨⟨n', hc', hl⟩, h2⟩ := h
    rw [Fields.load]
    rcases named_child hd i f.1 with ⟨hc, _, _⟩ | ⟨n, j, hc, hnm, hn⟩
    · rw [hc] at hc'
      exact nomatch hc'
    · rw [hc] at hc'
      injection hc' with hc'
      subst hc'
      have hnm' : Rd.named ⟨ch, i⟩ k f.1 = .ok (n, ⟨ch, j⟩) := by
        cases k with
        | binary => exact absurd rfl hk
        | json => exact hnm
        | text => exact hnm
      rw [hn, hnm']
      simp only [Bool.not_true, Bool.and_false, Bool.false_eq_true, if_false, hl, ih h2]
      rfl

example : GivenAll (P := ExP) .text [(some "b", .leaf (.inl 7)), (some "a", .leaf (.inl 8))]
    [("a", ⟨_, exNat⟩), ("b", ⟨_, exNat⟩)] (1, 2, ()) (8, 7, ()) :=
  ⟨⟨_, rfl, rfl⟩, ⟨_, rfl, rfl⟩, trivial⟩

/-- A name that no child has is not found, wherever the archive is. -/
theorem find_none {ch : List (Option String × Node P)} {name : String} (hn : ∀ x ∈ ch, x.1 ≠ some name) (i : Nat) :
    Rd.find ⟨ch, i⟩ name = none := by
  have hidx : ch.findIdx? (fun x => x.1 = some name) = none := by
    rw [List.findIdx?_eq_none_iff]
    intro x hx
    simp [hn x hx]
  unfold Rd.find
  simp only
  cases hi : ch[i]? with
  | none => exact hidx
  | some y =>
    simp only
    rw [if_neg (hn y (List.mem_of_getElem? hi))]
    exact hidx

/-- Reading a child leaves the list of children as it is. -/
theorem named_all {r r' : Rd P} {k : Kind} {name : String} {n : Node P} (h : r.named k name = .ok (n, r')) :
    r'.all = r.all := by
  have hnext : ∀ {q q' : Rd P} {n : Node P}, q.next = .ok (n, q') → q'.all = q.all := by
    intro q q' n h
    unfold Rd.next at h
    split at h
    · injection h with h
      injection h with _ h
      rw [← h]
    · exact nomatch h
  unfold Rd.named at h
  split at h
  · exact hnext h
  · split at h
    · exact (hnext h : _)
    · exact nomatch h

/-- A missing member that is not optional ends the loading of the members with an exception. -/
theorem fields_missing {opt : Bool} {k : Kind} (hk : k = .text ∨ (k = .json ∧ opt = false)) {f : String × Any P} :
    ∀ {l : List (String × Any P)} (_ : f ∈ l) (t : Fields l) (r : Rd P), (∀ x ∈ r.all, x.1 ≠ some f.1) →
      ∃ e, (Fields.load opt k l t r).2 = some e
  | g :: l, hf, t, r, hn => by
    have ho : (opt && k == .json && !r.hasName g.1) = false := by
      rcases hk with rfl | ⟨rfl, rfl⟩
      · cases opt <;> rfl
      · rfl
    rw [Fields.load, ho]
    simp only [Bool.false_eq_true, if_false]
    cases hr : r.named k g.1 with
    | error e => exact ⟨e, rfl⟩
    | ok p =>
      obtain ⟨n, r'⟩ := p
      simp only
      have hg : f ∈ l := by
        rcases List.mem_cons.1 hf with rfl | h
        · exfalso
          have := find_none hn r.idx
          rcases hk with rfl | ⟨rfl, rfl⟩ <;> simp [Rd.named, this] at hr
        · exact h
      obtain ⟨x, oe⟩ := g.2.c.load k t.1 n
      cases oe with
      | some e => exact ⟨e, rfl⟩
      | none =>
        obtain ⟨e, he⟩ := fields_missing hk hg t.2 r' (by rw [named_all hr]; exact hn)
        exact ⟨e, he⟩

/-- C76: without `hasName`, or with derived serialisation, a document in which some member is missing is not loaded: an
exception is thrown, wherever the member is. -/
theorem C76_missing {l : List (String × Any P)} {f : String × Any P} (hf : f ∈ l) {ch : List (Option String × Node P)}
    {t : Fields l} {opt : Bool} {k : Kind} (hk : k = .text ∨ (k = .json ∧ opt = false)) (hn : ∀ x ∈ ch, x.1 ≠ some f.1)
    (s : Option Nat) : ∃ e, ((struct opt l).load k t (.node s ch)).2 = some e :=
  fields_missing hk hf t ⟨ch, 0⟩ hn

/-- The member before the missing one has been loaded. -/
example : (struct (P := ExP) false [("a", ⟨_, exNat⟩), ("b", ⟨_, exNat⟩)]).load .json (1, 2, ())
    (.node none [(some "a", .leaf (.inl 8)), (some "c", .leaf (.inl 7))]) = ((8, 2, ()), some .archive) := rfl

/-- C76: without `hasName`, or with derived serialisation, a missing member is an error. -/
theorem C76_required {l : List (String × Any P)} {f : String × Any P} {ch : List (Option String × Node P)} {t : Fields (f :: l)}
    {opt : Bool} {k : Kind} (hk : k = .text ∨ (k = .json ∧ opt = false)) (hn : ∀ x ∈ ch, x.1 ≠ some f.1) (s : Option Nat) :
    (struct opt (f :: l)).load k t (.node s ch) = (t, some .archive) := by
  have hfind : Rd.find ⟨ch, 0⟩ f.1 = none := by
    have hidx : ch.findIdx? (fun x => x.1 = some f.1) = none := by
      rw [List.findIdx?_eq_none_iff]
      intro x hx
      simp [hn x hx]
    unfold Rd.find
    simp only
    cases hi : ch[0]? with
    | none => exact hidx
    | some y =>
      simp only
      rw [if_neg (hn y (List.mem_of_getElem? hi))]
      exact hidx
  show Fields.load opt k (f :: l) t ⟨ch, 0⟩ = _
  rw [Fields.load]
  rcases hk with rfl | ⟨rfl, rfl⟩
  · simp [Rd.named, hfind]
  · simp [Rd.named, hfind]

end Verif.Extra
