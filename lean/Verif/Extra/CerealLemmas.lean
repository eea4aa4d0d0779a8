import Verif.Extra.Cereal

/-!
Lemmas on serialisation.
-/

set_option linter.unusedSectionVars false

namespace Verif.Extra

variable {P A K : Type}

/-- A type loads what it saved: into an object just made, every value it has, with no exception. -/
def Loads (k : Kind) (c : Codec P A) : Prop :=
  c.init c.fresh ∧ ∀ t v, c.init t → c.valid v → ∃ v', c.load k t (c.save v) = (v', none) ∧ c.eq v' v

theorem Loads.new {k : Kind} {c : Codec P A} (h : Loads k c) {v : A} (hv : c.valid v) :
    ∃ v', c.loadNew k (c.save v) = .ok v' ∧ c.eq v' v := by
  obtain ⟨v', h1, h2⟩ := h.2 _ v h.1 hv
  exact ⟨v', by rw [Codec.loadNew, h1], h2⟩

/-- What is still to be read. -/
def Rd.Front (r : Rd P) (l : List (Option String × Node P)) : Prop := r.all.drop r.idx = l

theorem Rd.Front.head {r : Rd P} {x : Option String × Node P} {l : List (Option String × Node P)} (h : r.Front (x :: l)) :
    r.all[r.idx]? = some x := by
  have : (r.all.drop r.idx)[0]? = some x := by rw [h]; rfl
  simpa using this

theorem Rd.Front.tail {r : Rd P} {x : Option String × Node P} {l : List (Option String × Node P)} (h : r.Front (x :: l)) :
    Rd.Front { r with idx := r.idx + 1 } l := by
  show r.all.drop (r.idx + 1) = l
  rw [← List.drop_drop, h]
  rfl

theorem Rd.Front.next {r : Rd P} {x : Option String × Node P} {l : List (Option String × Node P)} (h : r.Front (x :: l)) :
    r.next = .ok (x.2, { r with idx := r.idx + 1 }) := by rw [Rd.next, h.head]

theorem Rd.Front.named {r : Rd P} {name : String} {n : Node P} {l : List (Option String × Node P)}
    (h : r.Front ((some name, n) :: l)) (k : Kind) : r.named k name = .ok (n, { r with idx := r.idx + 1 }) := by
  have hf : r.find name = some r.idx := by rw [Rd.find, h.head]; simp
  cases k <;> simp only [Rd.named, hf] <;> exact h.next

theorem Rd.Front.hasName {r : Rd P} {name : String} {n : Node P} {l : List (Option String × Node P)}
    (h : r.Front ((some name, n) :: l)) : r.hasName name = true := by
  rw [Rd.hasName, List.any_eq_true]
  exact ⟨_, List.mem_of_getElem? h.head, by simp⟩

theorem loadNamed_front {k : Kind} {c : Codec P A} (h : Loads k c) {v : A} (hv : c.valid v) {name : String} {r : Rd P}
    {l : List (Option String × Node P)} (hr : r.Front ((some name, c.save v) :: l)) :
    ∃ v', c.loadNamed k name r = .ok (v', { r with idx := r.idx + 1 }) ∧ c.eq v' v := by
  obtain ⟨v', h1, h2⟩ := h.new hv
  exact ⟨v', by rw [Codec.loadNamed, hr.named]; simp only [h1], h2⟩

theorem front_start (s : Option Nat) (l : List (Option String × Node P)) :
    (Node.node s l).start = .ok ⟨l, 0⟩ ∧ Rd.Front ⟨l, 0⟩ l := ⟨rfl, rfl⟩

theorem size_node (k : Kind) (l : List (Option String × Node P)) (n : Nat) (h : n = l.length) :
    size k (.node (some n) l) = .ok n := by
  cases k <;> simp [size, h]

theorem loadSeq_ok {k : Kind} {c : Codec P A} (h : Loads k c) (l : List A) (hl : ∀ x ∈ l, c.valid x) (r : Rd P)
    (acc : List A) (hr : r.Front (l.map fun x => (none, c.save x))) :
    ∃ l', loadSeq c k l.length r acc = .ok (acc ++ l') ∧ Pointwise c.eq l' l := by
  induction l generalizing r acc with
  | nil => exact ⟨[], by simp [loadSeq], trivial⟩
  | cons x xs ih =>
    rw [List.map_cons] at hr
    obtain ⟨x', h1, h2⟩ := h.new (hl x (by simp))
    obtain ⟨l', h3, h4⟩ := ih (fun y hy => hl y (by simp [hy])) _ (acc ++ [x']) hr.tail
    refine ⟨x' :: l', ?_, h2, h4⟩
    rw [List.length_cons, loadSeq, hr.next]
    simp only [h1]
    rw [h3, List.append_assoc]
    rfl

/-- Loading a sequence into any target: the empty sequence leaves it as it was. -/
theorem seq_load {k : Kind} {c : Codec P A} (h : Loads k c) {l : List A} (hl : ∀ x ∈ l, c.valid x) (t : List A) :
    ∃ l', (seq c).load k t ((seq c).save l) = (if l = [] then t else l', none) ∧ Pointwise c.eq l' l := by
  obtain ⟨l', h1, h2⟩ := loadSeq_ok h l hl ⟨l.map fun x => (none, c.save x), 0⟩ [] rfl
  refine ⟨l', ?_, h2⟩
  rw [List.nil_append] at h1
  simp only [seq]
  rw [size_node k _ l.length (by simp)]
  cases l with
  | nil => rfl
  | cons x xs =>
    simp only [List.length_cons, reduceCtorEq, if_false]
    simp only [(front_start _ _).1]
    rw [List.length_cons] at h1
    rw [h1]

theorem Pointwise.map {B : Type} {R : A → A → Prop} {S : B → B → Prop} {f : A → B} (h : ∀ x y, R x y → S (f x) (f y)) :
    ∀ {l l' : List A}, Pointwise R l l' → Pointwise S (l.map f) (l'.map f)
  | [], [], _ => trivial
  | _ :: _, _ :: _, hp => ⟨h _ _ hp.1, Pointwise.map h hp.2⟩

theorem loads_prim (k : Kind) {inj : A → P} {proj : P → Option A} (h : ∀ x, proj (inj x) = some x) (junk : A) :
    Loads k (prim inj proj junk) := ⟨trivial, fun _ v _ _ => ⟨v, by simp only [prim, h], rfl⟩⟩

theorem loads_mono (k : Kind) : Loads k (mono (P := P)) := ⟨trivial, fun _ v _ _ => ⟨v, rfl, rfl⟩⟩

theorem loads_seq {k : Kind} {c : Codec P A} (h : Loads k c) : Loads k (seq c) := by
  refine ⟨rfl, fun t l ht hl => ?_⟩
  obtain ⟨l', h1, h2⟩ := seq_load h hl t
  cases ht
  refine ⟨_, h1, ?_⟩
  split
  · next he => cases he; exact trivial
  · exact h2

/-- Loading a box into any target. -/
theorem box_load {k : Kind} {c : Codec P A} (h : Loads k c) {b : Box A} (hb : c.valid b.get) (t : Box A) :
    ∃ x, (box c).load k t ((box c).save b) = (⟨x⟩, none) ∧ c.eq x b.get := by
  obtain ⟨x, h1, h2⟩ := loadNamed_front h hb (name := "value") (r := ⟨[(some "value", c.save b.get)], 0⟩) (l := []) rfl
  refine ⟨x, ?_, h2⟩
  simp only [box, (front_start _ _).1, h1]

theorem loads_box {k : Kind} {c : Codec P A} (h : Loads k c) : Loads k (box c) :=
  ⟨trivial, fun t b _ hb => by
    obtain ⟨x, h1, h2⟩ := box_load h (b := b) hb t
    exact ⟨_, h1, h2⟩⟩

theorem boxSeq_load {k : Kind} {c : Codec P A} (h : Loads k c) {l : List (Box A)} (hl : ∀ x ∈ l, c.valid x.get)
    (t : List (Box A)) :
    ∃ l', (boxSeq c).load k t ((boxSeq c).save l) = (if l = [] then t else l', none) ∧
      Pointwise (fun b b' => c.eq b.get b'.get) l' l := by
  obtain ⟨l', h1, h2⟩ := seq_load h (l := l.map (·.get)) (by simpa using hl) (t.map (·.get))
  refine ⟨l'.map (⟨·⟩), ?_, ?_⟩
  · simp only [boxSeq, h1]
    cases l with
    | nil =>
      simp only [List.map_nil, if_true, List.map_map]
      exact congrArg (·, none) (List.map_id t)
    | cons x xs => simp
  · have := Pointwise.map (S := fun b b' => c.eq b.get b'.get) (f := Box.mk) (fun _ _ h => h) h2
    rw [List.map_map] at this
    exact (List.map_id l : l.map (Box.mk ∘ Box.get) = l) ▸ this

theorem loads_boxSeq {k : Kind} {c : Codec P A} (h : Loads k c) : Loads k (boxSeq c) := by
  refine ⟨rfl, fun t l ht hl => ?_⟩
  obtain ⟨l', h1, h2⟩ := boxSeq_load h hl t
  cases ht
  refine ⟨_, h1, ?_⟩
  split
  · next he => cases he; exact trivial
  · exact h2

section maps
variable [DecidableEq K]

/-- The nodes are read as these keys and values, up to equality of the values. -/
def Items (eq : A → A → Prop) (item : Node P → Except Err (K × A)) : List (K × A) → List (Option String × Node P) → Prop
  | [], [] => True
  | e :: es, n :: ns => (∃ x, item n.2 = .ok (e.1, x) ∧ eq x e.2) ∧ Items eq item es ns
  | _, _ => False

theorem loadMap_ok (I : MapImpl K A) {eq : A → A → Prop} {item : Node P → Except Err (K × A)} :
    ∀ (es : List (K × A)) (ns : List (Option String × Node P)), Items eq item es ns → (es.map (·.1)).Nodup →
    ∀ (r : Rd P) (m : I.M), r.Front ns → ∃ m', loadMap I item es.length r m = (m', none) ∧
      ∀ k, (∀ x, (k, x) ∈ es → ∃ x', I.get m' k = some x' ∧ eq x' x) ∧
        ((∀ x, (k, x) ∉ es) → I.get m' k = I.get m k)
  | [], _, _, _, r, m, _ => ⟨m, rfl, fun k => ⟨fun _ h => (by cases h), fun _ => rfl⟩⟩
  | e :: es, n :: ns, hi, hd, r, m, hr => by
    obtain ⟨⟨x', h1, h2⟩, hi⟩ := hi
    rw [List.map_cons, List.nodup_cons] at hd
    obtain ⟨m', h3, h4⟩ := loadMap_ok I es ns hi hd.2 { r with idx := r.idx + 1 } (I.set m e.1 x') hr.tail
    refine ⟨m', ?_, fun k => ⟨fun x hx => ?_, fun hk => ?_⟩⟩
    · rw [List.length_cons, loadMap, hr.next]
      simp only [h1, h3]
    · cases hx with
      | head =>
        refine ⟨x', ?_, h2⟩
        rw [(h4 k).2 fun y hy => hd.1 (List.mem_map.mpr ⟨_, hy, rfl⟩), I.get_set, if_pos rfl]
      | tail _ hx => exact (h4 k).1 x hx
    · rw [(h4 k).2 fun x hx => hk x (by simp [hx]), I.get_set, if_neg fun he => hk e.2 (by rw [he]; simp)]

theorem subset_of_length {B : Type} [DecidableEq B] {l l' : List B} (hd : l.Nodup) (hs : l ⊆ l')
    (hl : l'.length ≤ l.length) : l' ⊆ l := by
  induction l generalizing l' with
  | nil => cases l' with
    | nil => exact fun _ h => h
    | cons => simp at hl
  | cons x xs ih =>
    rw [List.nodup_cons] at hd
    have hx : x ∈ l' := hs (by simp)
    have h1 : xs ⊆ l'.erase x := by
      intro y hy
      have hne : y ≠ x := fun he => hd.1 (he ▸ hy)
      exact (List.mem_erase_of_ne hne).mpr (hs (by simp [hy]))
    have h2 := ih hd.2 h1 (by rw [List.length_erase_of_mem hx]; simp at hl; omega)
    intro y hy
    by_cases he : y = x
    · simp [he]
    · exact List.mem_cons_of_mem _ (h2 ((List.mem_erase_of_ne he).mpr hy))

theorem length_le {B : Type} [DecidableEq B] {l l' : List B} (hd : l.Nodup) (hs : l ⊆ l') : l.length ≤ l'.length := by
  induction l generalizing l' with
  | nil => simp
  | cons x xs ih =>
    rw [List.nodup_cons] at hd
    have hx : x ∈ l' := hs (by simp)
    have h1 : xs ⊆ l'.erase x := by
      intro y hy
      have hne : y ≠ x := fun he => hd.1 (he ▸ hy)
      exact (List.mem_erase_of_ne hne).mpr (hs (by simp [hy]))
    have := ih hd.2 h1
    rw [List.length_erase_of_mem hx] at this
    have : 0 < l'.length := List.length_pos_of_mem hx
    simp
    omega

theorem perm_of_length {B : Type} [DecidableEq B] {l l' : List B} (hd : l.Nodup) (hs : l ⊆ l')
    (hl : l'.length ≤ l.length) : l.Perm l' := by
  induction l generalizing l' with
  | nil => cases l' with
    | nil => exact .nil
    | cons => simp at hl
  | cons x xs ih =>
    rw [List.nodup_cons] at hd
    have hx : x ∈ l' := hs (by simp)
    have h1 : xs ⊆ l'.erase x := by
      intro y hy
      have hne : y ≠ x := fun he => hd.1 (he ▸ hy)
      exact (List.mem_erase_of_ne hne).mpr (hs (by simp [hy]))
    have h2 := ih hd.2 h1 (by rw [List.length_erase_of_mem hx]; simp at hl; omega)
    exact (List.Perm.cons x h2).trans (List.perm_cons_erase hx).symm

theorem mem_keys (I : MapImpl K A) (m : I.M) (k : K) : k ∈ (I.entries m).map (·.1) ↔ ∃ x, I.get m k = some x := by
  rw [List.mem_map]
  constructor
  · rintro ⟨e, he, rfl⟩
    exact ⟨e.2, (I.mem_entries m _ _).mp he⟩
  · rintro ⟨x, hx⟩
    exact ⟨(k, x), (I.mem_entries m _ _).mpr hx, rfl⟩

/-- Loading items, whether or not their keys are distinct: only their keys are added. -/
theorem loadMap_keys (I : MapImpl K A) {item : Node P → Except Err (K × A)} :
    ∀ (es : List (K × A)) (ns : List (Option String × Node P)), Items Eq item es ns →
    ∀ (r : Rd P) (m : I.M), r.Front ns → ∃ m', loadMap I item es.length r m = (m', none) ∧
      ∀ k x, I.get m' k = some x → k ∈ es.map (·.1) ∨ I.get m k = some x
  | [], _, _, r, m, _ => ⟨m, rfl, fun _ _ h => .inr h⟩
  | e :: es, n :: ns, hi, r, m, hr => by
    obtain ⟨⟨x', h1, h2⟩, hi⟩ := hi
    obtain ⟨m', h3, h4⟩ := loadMap_keys I es ns hi { r with idx := r.idx + 1 } (I.set m e.1 x') hr.tail
    refine ⟨m', ?_, fun k x hx => ?_⟩
    · rw [List.length_cons, loadMap, hr.next]
      simp only [h1, h3]
    · rcases h4 k x hx with h | h
      · exact .inl (by rw [List.map_cons]; exact List.mem_cons_of_mem _ h)
      · rw [I.get_set] at h
        split at h
        · next he => exact .inl (by rw [he]; simp)
        · exact .inr h

/-- A map that contains the keys of another has as many elements exactly if it has no other keys. -/
theorem size_eq_iff (I : MapImpl K A) {m m' : I.M} (h : ∀ k x, I.get m k = some x → ∃ x', I.get m' k = some x') :
    I.size m = I.size m' ↔ ∀ k x, I.get m' k = some x → ∃ x', I.get m k = some x' := by
  have hs : (I.entries m).map (·.1) ⊆ (I.entries m').map (·.1) := by
    intro k hk
    obtain ⟨x, hx⟩ := (mem_keys I m k).mp hk
    exact (mem_keys I m' k).mpr (h k x hx)
  constructor
  · intro he k x hx
    have := subset_of_length (I.nodup m) hs (by simp only [List.length_map]; exact Nat.le_of_eq he.symm)
    exact (mem_keys I m k).mp (this ((mem_keys I m' k).mpr ⟨x, hx⟩))
  · intro hk
    have h1 := length_le (I.nodup m) hs
    have h2 := length_le (I.nodup m') (l' := (I.entries m).map (·.1)) fun k hk' => by
      obtain ⟨x, hx⟩ := (mem_keys I m' k).mp hk'
      exact (mem_keys I m k).mpr (hk k x hx)
    simp only [List.length_map] at h1 h2
    exact Nat.le_antisymm h1 h2

/-- Loading a map into any target: it throws exactly if the target has other keys. -/
theorem loadMapAll_ok (I : MapImpl K A) {eq : A → A → Prop} {item : Node P → Except Err (K × A)} (k : Kind) (t m : I.M)
    {ns : List (Option String × Node P)} (hi : Items eq item (I.entries m) ns) :
    ∃ m', (∀ key, (∀ x, I.get m key = some x → ∃ x', I.get m' key = some x' ∧ eq x' x) ∧
        (I.get m key = none → I.get m' key = I.get t key)) ∧
      (loadMapAll I item k t (.node (some (I.size m)) ns)).1 = m' ∧
      (loadMapAll I item k t (.node (some (I.size m)) ns)).2 =
        if I.size m ≠ I.size m' then some (.runtime "duplicate ids?") else none := by
  obtain ⟨m', h1, h2⟩ := loadMap_ok I _ ns hi (I.nodup m) ⟨ns, 0⟩ t rfl
  have hlen : ∀ (es : List (K × A)) ns, Items eq item es ns → es.length = ns.length := by
    intro es
    induction es with
    | nil => intro ns h; cases ns with
      | nil => rfl
      | cons => cases h
    | cons e es ih => intro ns h; cases ns with
      | nil => cases h
      | cons n ns => rw [List.length_cons, List.length_cons, ih ns h.2]
  refine ⟨m', fun key => ⟨fun x hx => (h2 key).1 x ((I.mem_entries m key x).mpr hx), fun hx => (h2 key).2 fun x he => ?_⟩,
    ?_⟩
  · rw [(I.mem_entries m key x).mp he] at hx
    cases hx
  · have h1 : loadMap I item (I.size m) ⟨ns, 0⟩ t = (m', none) := h1
    unfold loadMapAll
    rw [size_node k ns (I.size m) (hlen _ _ hi)]
    simp only [(front_start _ _).1, h1]
    split <;> exact ⟨rfl, rfl⟩

theorem same_of (I : MapImpl K A) {eq : A → A → Prop} {m m' : I.M}
    (h : ∀ key, (∀ x, I.get m key = some x → ∃ x', I.get m' key = some x' ∧ eq x' x) ∧
      (I.get m key = none → I.get m' key = none)) : I.Same eq m' m := by
  intro k
  cases hm : I.get m k with
  | none => rw [(h k).2 hm]; trivial
  | some x =>
    obtain ⟨x', h1, h2⟩ := (h k).1 x hm
    rw [h1]
    exact h2

theorem loads_items (I : MapImpl K A) {eq : A → A → Prop} {item : Node P → Except Err (K × A)} {k : Kind} {t m : I.M}
    (ht : ∀ k, I.get t k = none) {ns : List (Option String × Node P)} (hi : Items eq item (I.entries m) ns) :
    ∃ m', loadMapAll I item k t (.node (some (I.size m)) ns) = (m', none) ∧ I.Same eq m' m := by
  obtain ⟨m', h1, h2, h3⟩ := loadMapAll_ok I k t m hi
  have hsame : I.Same eq m' m := same_of I fun key => ⟨(h1 key).1, fun h => by rw [(h1 key).2 h, ht]⟩
  refine ⟨m', Prod.ext h2 ?_, hsame⟩
  rw [h3, if_neg]
  refine not_not_intro ((size_eq_iff I fun k x hx => ?_).mpr fun k x hx => ?_)
  · obtain ⟨x', h, _⟩ := (h1 k).1 x hx
    exact ⟨x', h⟩
  · have := hsame k
    rw [hx] at this
    cases hg : I.get m k with
    | some y => exact ⟨y, rfl⟩
    | none => rw [hg] at this; exact this.elim

theorem items_map {eq : A → A → Prop} {item : Node P → Except Err (K × A)} (es : List (K × A))
    (f : K × A → Option String × Node P) (h : ∀ e ∈ es, ∃ x, item (f e).2 = .ok (e.1, x) ∧ eq x e.2) :
    Items eq item es (es.map f) := by
  induction es with
  | nil => trivial
  | cons e es ih => exact ⟨h e (by simp), ih fun e he => h e (by simp [he])⟩

theorem map_items (I : MapImpl K A) {ck : Codec P K} {c : Codec P A} {k : Kind} (hk : Loads k ck) (h : Loads k c)
    (hke : ∀ x y, ck.eq x y → x = y) {m : I.M} (hm : (map I ck c).valid m) :
    Items c.eq (loadItem ck c k) (I.entries m) ((I.entries m).map fun e =>
      (none, Node.node none [(some "key", ck.save e.1), (some "value", c.save e.2)])) := by
  refine items_map _ _ fun e he => ?_
  obtain ⟨h1, h2⟩ := hm e.1 e.2 ((I.mem_entries m _ _).mp he)
  obtain ⟨key, h3, h4⟩ := loadNamed_front hk h1 (name := "key")
    (r := ⟨[(some "key", ck.save e.1), (some "value", c.save e.2)], 0⟩) (l := [(some "value", c.save e.2)]) rfl
  obtain ⟨x, h5, h6⟩ := loadNamed_front h h2 (name := "value")
    (r := ⟨[(some "key", ck.save e.1), (some "value", c.save e.2)], 1⟩) (l := []) rfl
  refine ⟨x, ?_, h6⟩
  simp only [loadItem, (front_start _ _).1, h3, h5, hke _ _ h4]

theorem loads_map (I : MapImpl K A) {ck : Codec P K} {c : Codec P A} {k : Kind} (hk : Loads k ck) (h : Loads k c)
    (hke : ∀ x y, ck.eq x y → x = y) : Loads k (map I ck c) :=
  ⟨I.get_empty, fun _ _ ht hm => loads_items I ht (map_items I hk h hke hm)⟩

theorem idMap_items (I : MapImpl K A) {id : A → K} {c : Codec P A} {k : Kind} (h : Loads k c)
    (hid : ∀ x y, c.eq x y → id x = id y) {m : I.M} (hm : (idMap I id c).valid m) :
    Items c.eq (fun n => (c.loadNew k n).map fun x => (id x, x)) (I.entries m)
      ((I.entries m).map fun e => (none, c.save e.2)) := by
  refine items_map _ _ fun e he => ?_
  obtain ⟨h1, h2⟩ := hm e.1 e.2 ((I.mem_entries m _ _).mp he)
  obtain ⟨x, h3, h4⟩ := h.new h2
  exact ⟨x, by simp only [h3, Except.map, hid _ _ h4, ← h1], h4⟩

theorem loads_idMap (I : MapImpl K A) {id : A → K} {c : Codec P A} {k : Kind} (h : Loads k c)
    (hid : ∀ x y, c.eq x y → id x = id y) : Loads k (idMap I id c) :=
  ⟨I.get_empty, fun _ _ ht hm => loads_items I ht (idMap_items I h hid hm)⟩

theorem loadSet_ok (I : SetImpl K) {ck : Codec P K} {k : Kind} (hk : Loads k ck) (hke : ∀ x y, ck.eq x y → x = y)
    (l : List K) (hl : ∀ x ∈ l, ck.valid x) (r : Rd P) (m : I.M) (hr : r.Front (l.map fun x => (none, ck.save x))) :
    ∃ m', loadSet I ck k l.length r m = (m', none) ∧ ∀ x, I.mem m' x ↔ x ∈ l ∨ I.mem m x := by
  induction l generalizing r m with
  | nil => exact ⟨m, rfl, fun x => by simp⟩
  | cons x xs ih =>
    rw [List.map_cons] at hr
    obtain ⟨x', h1, h2⟩ := hk.new (hl x (by simp))
    have h2 := hke _ _ h2
    subst h2
    obtain ⟨m', h3, h4⟩ := ih (fun y hy => hl y (by simp [hy])) _ (I.insert m x') hr.tail
    refine ⟨m', ?_, fun y => ?_⟩
    · rw [List.length_cons, loadSet, hr.next]
      simp only [h1, h3]
    · rw [h4, I.mem_insert, List.mem_cons, or_assoc, or_left_comm]

/-- Loading a set into any target: it throws exactly if the target has other elements. -/
theorem set_load (I : SetImpl K) {ck : Codec P K} {k : Kind} (hk : Loads k ck) (hke : ∀ x y, ck.eq x y → x = y)
    {m : I.M} (hm : ∀ x, I.mem m x → ck.valid x) (t : I.M) :
    ∃ m', (∀ x, I.mem m' x ↔ I.mem m x ∨ I.mem t x) ∧
      ((∀ x, I.mem t x → I.mem m x) → (set I ck).load k t ((set I ck).save m) = (m', none)) ∧
      (¬ (∀ x, I.mem t x → I.mem m x) →
        (set I ck).load k t ((set I ck).save m) = (m', some (.runtime "duplicate items?"))) := by
  obtain ⟨m', h1, h2⟩ := loadSet_ok I hk hke (I.elems m) (fun x hx => hm x ((I.mem_elems m x).mp hx))
    ⟨(I.elems m).map fun x => (none, ck.save x), 0⟩ t rfl
  have h1 : loadSet I ck k (I.size m) ⟨(I.elems m).map fun x => (none, ck.save x), 0⟩ t = (m', none) := h1
  have h2 : ∀ x, I.mem m' x ↔ I.mem m x ∨ I.mem t x := fun x => by rw [h2, I.mem_elems]
  refine ⟨m', h2, ?_⟩
  simp only [set]
  rw [size_node k _ _ (by simp [SetImpl.size])]
  have hs : I.elems m ⊆ I.elems m' := fun x hx => (I.mem_elems m' x).mpr ((h2 x).mpr (.inl ((I.mem_elems m x).mp hx)))
  simp only [(front_start _ _).1, h1]
  constructor
  · intro hsub
    rw [if_neg]
    refine not_not_intro (Nat.le_antisymm (length_le (I.nodup m) hs) (length_le (I.nodup m') fun x hx => ?_))
    rw [I.mem_elems] at hx ⊢
    exact ((h2 x).mp hx).elim (fun h => h) (hsub x)
  · intro hsub
    rw [if_pos]
    intro he
    have := subset_of_length (I.nodup m) hs (Nat.le_of_eq he.symm)
    exact hsub fun x hx => (I.mem_elems m x).mp (this ((I.mem_elems m' x).mpr ((h2 x).mpr (.inr hx))))

theorem loads_set (I : SetImpl K) {ck : Codec P K} {k : Kind} (hk : Loads k ck) (hke : ∀ x y, ck.eq x y → x = y) :
    Loads k (set I ck) := by
  refine ⟨I.mem_empty, fun t m ht hm => ?_⟩
  obtain ⟨m', h1, h2, _⟩ := set_load I hk hke hm t
  refine ⟨m', h2 fun x hx => (ht x hx).elim, fun x => by rw [h1]; exact ⟨fun h => h.elim (fun h => h) fun h => (ht x h).elim, .inl⟩⟩

end maps

theorem tup_load {k : Kind} : ∀ (l : List (Any P)), (∀ a ∈ l, Loads k a.c) → ∀ (t v : Tup l), Tup.init l t → Tup.valid l v →
    ∀ (r : Rd P) (rest : List (Option String × Node P)), r.Front ((Tup.save l v).map (fun n => (none, n)) ++ rest) →
    ∃ v', Tup.load k l t r = (v', none) ∧ Tup.eq l v' v
  | [], _, t, _, _, _, _, _, _ => ⟨t, rfl, trivial⟩
  | a :: as, h, t, v, ht, hv, r, rest, hr => by
    rw [Tup.save, List.map_cons, List.cons_append] at hr
    obtain ⟨x, h1, h2⟩ := (h a (by simp)).2 t.1 v.1 ht.1 hv.1
    obtain ⟨y, h3, h4⟩ := tup_load as (fun b hb => h b (by simp [hb])) t.2 v.2 ht.2 hv.2 _ rest hr.tail
    refine ⟨(x, y), ?_, h2, h4⟩
    rw [Tup.load, hr.next]
    simp only [h1, h3]

theorem tup_fresh {k : Kind} : ∀ (l : List (Any P)), (∀ a ∈ l, Loads k a.c) → Tup.init l (Tup.fresh l)
  | [], _ => trivial
  | a :: as, h => ⟨(h a (by simp)).1, tup_fresh as fun b hb => h b (by simp [hb])⟩

theorem length_save : ∀ (l : List (Any P)) (t : Tup l), (Tup.save l t).length = l.length
  | [], _ => rfl
  | _ :: as, t => by rw [Tup.save, List.length_cons, List.length_cons, length_save as t.2]

theorem loads_tuple {k : Kind} {l : List (Any P)} (h : ∀ a ∈ l, Loads k a.c) : Loads k (tuple l) := by
  refine ⟨tup_fresh l h, fun t v ht hv => ?_⟩
  obtain ⟨v', h1, h2⟩ := tup_load l h t v ht hv ⟨(Tup.save l v).map (fun n => (none, n)), 0⟩ []
    (by rw [List.append_nil]; rfl)
  refine ⟨v', ?_, h2⟩
  simp only [tuple]
  rw [size_node k _ _ (by rw [List.length_map, length_save])]
  simp only [(front_start _ _).1, h1]

theorem fields_load {opt : Bool} {k : Kind} : ∀ (l : List (String × Any P)), (∀ a ∈ l, Loads k a.2.c) →
    ∀ (t v : Fields l), Tup.init (types l) t → Tup.valid (types l) v → ∀ (r : Rd P), r.Front (Fields.save l v) →
    ∃ v', Fields.load opt k l t r = (v', none) ∧ Tup.eq (types l) v' v
  | [], _, t, _, _, _, _, _ => ⟨t, rfl, trivial⟩
  | f :: fs, h, t, v, ht, hv, r, hr => by
    have hr : r.Front ((some f.1, f.2.c.save v.1) :: Fields.save fs v.2) := hr
    obtain ⟨x, h1, h2⟩ := (h f (by simp)).2 t.1 v.1 ht.1 hv.1
    obtain ⟨y, h3, h4⟩ := fields_load (opt := opt) fs (fun b hb => h b (by simp [hb])) t.2 v.2 ht.2 hv.2 _ hr.tail
    refine ⟨(x, y), ?_, h2, h4⟩
    rw [Fields.load, hr.hasName, hr.named]
    simp only [Bool.not_true, Bool.and_false, Bool.false_eq_true, if_false, h1, h3]

theorem loads_struct {opt : Bool} {k : Kind} {l : List (String × Any P)} (h : ∀ a ∈ l, Loads k a.2.c) :
    Loads k (struct opt l) := by
  refine ⟨tup_fresh (k := k) _ fun a ha => ?_, fun t v ht hv => ?_⟩
  · obtain ⟨f, hf, rfl⟩ := List.mem_map.mp ha
    exact h f hf
  · obtain ⟨v', h1, h2⟩ := fields_load (opt := opt) l h t v ht hv ⟨Fields.save l v, 0⟩ rfl
    exact ⟨v', h1, h2⟩

theorem alt_load {k : Kind} : ∀ (l : List (String × Any P)), (∀ a ∈ l, Loads k a.2.c) → (l.map (·.1)).Nodup →
    ∀ (v : Alt l), Alt.valid l v → ∀ (r : Rd P), r.Front [(some "data", Alt.save l v)] →
    ∃ v', Alt.load k (Alt.name l v) r l = .ok v' ∧ Alt.eq l v' v
  | a :: as, h, _, .inl x, hv, r, hr => by
    obtain ⟨x', h1, h2⟩ := loadNamed_front (h a (by simp)) hv hr
    refine ⟨.inl x', ?_, h2⟩
    rw [Alt.load, Alt.name, if_pos rfl]
    simp only [h1]
  | a :: as, h, hd, .inr y, hv, r, hr => by
    rw [List.map_cons, List.nodup_cons] at hd
    obtain ⟨y', h1, h2⟩ := alt_load as (fun b hb => h b (by simp [hb])) hd.2 y hv r hr
    refine ⟨.inr y', ?_, h2⟩
    have hne : a.1 ≠ Alt.name as y := by
      intro he
      apply hd.1
      rw [he]
      have : ∀ (as : List (String × Any P)) (y : Alt as), Alt.name as y ∈ as.map (·.1) := by
        intro as
        induction as with
        | nil => intro y; cases y
        | cons b bs ih =>
          intro y
          cases y with
          | inl x => exact List.mem_cons_self
          | inr y => exact List.mem_cons_of_mem _ (ih y)
      exact this as y
    rw [Alt.load, Alt.name, if_neg hne, h1]
    rfl

/-- Loading a variant into any target. -/
theorem variant_load {cs : Codec P String} {a : String × Any P} {l : List (String × Any P)} {k : Kind} (hs : Loads k cs)
    (hsv : ∀ s, cs.valid s) (hse : ∀ s s', cs.eq s s' → s = s') (h : ∀ b ∈ a :: l, Loads k b.2.c)
    (hd : ((a :: l).map (·.1)).Nodup) {v : Alt (a :: l)} (hv : Alt.valid (a :: l) v) (t : Alt (a :: l)) :
    ∃ v', (variant cs a l).load k t ((variant cs a l).save v) = (v', none) ∧ Alt.eq (a :: l) v' v := by
  obtain ⟨s, h1, h2⟩ := loadNamed_front hs (hsv (Alt.name (a :: l) v)) (name := "type")
    (r := ⟨[(some "type", cs.save (Alt.name (a :: l) v)), (some "data", Alt.save (a :: l) v)], 0⟩)
    (l := [(some "data", Alt.save (a :: l) v)]) rfl
  cases hse _ _ h2
  obtain ⟨v', h3, h4⟩ := alt_load (a :: l) h hd v hv
    ⟨[(some "type", cs.save (Alt.name (a :: l) v)), (some "data", Alt.save (a :: l) v)], 1⟩ rfl
  refine ⟨v', ?_, h4⟩
  simp only [variant, (front_start _ _).1, h1, h3]

theorem loads_variant {cs : Codec P String} {a : String × Any P} {l : List (String × Any P)} {k : Kind} (hs : Loads k cs)
    (hsv : ∀ s, cs.valid s) (hse : ∀ s s', cs.eq s s' → s = s') (h : ∀ b ∈ a :: l, Loads k b.2.c)
    (hd : ((a :: l).map (·.1)).Nodup) : Loads k (variant cs a l) :=
  ⟨trivial, fun t _ _ hv => variant_load hs hsv hse h hd hv t⟩

/-- The child with a name. -/
def child (ch : List (Option String × Node P)) (name : String) : Option (Node P) :=
  (ch.find? fun x => x.1 = some name).map (·.2)

theorem find_of_mem {ch : List (Option String × Node P)} (hd : (ch.filterMap (·.1)).Nodup) {name : String} {n : Node P}
    (h : (some name, n) ∈ ch) : child ch name = some n := by
  induction ch with
  | nil => cases h
  | cons x xs ih =>
    unfold child
    rw [List.find?_cons]
    cases h with
    | head => simp
    | tail _ h =>
      have hne : x.1 ≠ some name := by
        intro he
        rw [List.filterMap_cons, he] at hd
        exact (List.nodup_cons.mp hd).1 (List.mem_filterMap.mpr ⟨_, h, rfl⟩)
      simp only [hne, decide_false]
      refine ih ?_ h
      rw [List.filterMap_cons] at hd
      split at hd
      · exact hd
      · exact (List.nodup_cons.mp hd).2

theorem findIdx_find (ch : List (Option String × Node P)) (p : Option String × Node P → Bool) :
    (ch.findIdx? p).bind (ch[·]?) = ch.find? p := by
  induction ch with
  | nil => rfl
  | cons x xs ih =>
    rw [List.findIdx?_cons, List.find?_cons]
    cases hp : p x with
    | true => simp
    | false =>
      simp only [Bool.false_eq_true, if_false]
      rw [← ih]
      cases xs.findIdx? p <;> simp

/-- With distinct names, a name is read from the child with that name, wherever the reading has come to. -/
theorem named_child {ch : List (Option String × Node P)} (hd : (ch.filterMap (·.1)).Nodup) (i : Nat) (name : String) :
    (child ch name = none ∧ Rd.named ⟨ch, i⟩ .json name = .error .archive ∧ Rd.hasName ⟨ch, i⟩ name = false) ∨
    ∃ n j, child ch name = some n ∧ Rd.named ⟨ch, i⟩ .json name = .ok (n, ⟨ch, j⟩) ∧ Rd.hasName ⟨ch, i⟩ name = true := by
  have hfi := findIdx_find ch fun x => x.1 = some name
  have key : (∃ x, x ∈ ch ∧ x.1 = some name) ∨ (∀ x ∈ ch, x.1 ≠ some name) := by
    by_cases h : ∃ x, x ∈ ch ∧ x.1 = some name
    · exact .inl h
    · exact .inr fun x hx he => h ⟨x, hx, he⟩
  rcases key with ⟨x, hx, he⟩ | hno
  · right
    have hc := find_of_mem hd (name := name) (n := x.2) (by rw [← he]; exact hx)
    have hn : Rd.hasName ⟨ch, i⟩ name = true := by
      rw [Rd.hasName, List.any_eq_true]
      exact ⟨x, hx, by simp [he]⟩
    have hfind : ∃ j y, Rd.find ⟨ch, i⟩ name = some j ∧ ch[j]? = some y ∧ y.2 = x.2 := by
      have hrest : ∃ j y, ch.findIdx? (fun x => x.1 = some name) = some j ∧ ch[j]? = some y ∧ y.2 = x.2 := by
        unfold child at hc
        rw [← hfi] at hc
        cases hj : ch.findIdx? (fun x => x.1 = some name) with
        | none => rw [hj] at hc; cases hc
        | some j =>
          rw [hj] at hc
          simp only [Option.bind_some] at hc
          cases hy : ch[j]? with
          | none => rw [hy] at hc; cases hc
          | some y => rw [hy] at hc; exact ⟨j, y, rfl, hy, by simpa using hc⟩
      unfold Rd.find
      simp only
      cases hi : ch[i]? with
      | none => exact hrest
      | some y =>
        simp only
        split
        · next hy =>
          refine ⟨i, y, rfl, hi, ?_⟩
          have := find_of_mem hd (name := name) (n := y.2) (by rw [← hy]; exact List.mem_of_getElem? hi)
          rw [hc] at this
          exact (Option.some.inj this).symm
        · exact hrest
    obtain ⟨j, y, h1, h2, h3⟩ := hfind
    refine ⟨x.2, j + 1, hc, ?_, hn⟩
    simp only [Rd.named, h1, Rd.next, h2, h3]
  · left
    have hc : ch.find? (fun x => x.1 = some name) = none := by
      rw [List.find?_eq_none]
      intro x hx he
      exact hno x hx (by simpa using he)
    have hidx : ch.findIdx? (fun x => x.1 = some name) = none := by
      rw [List.findIdx?_eq_none_iff]
      intro x hx
      simp [hno x hx]
    refine ⟨by rw [child, hc]; rfl, ?_, ?_⟩
    · have : Rd.find ⟨ch, i⟩ name = none := by
        unfold Rd.find
        simp only
        cases hi : ch[i]? with
        | none => exact hidx
        | some y =>
          simp only
          rw [if_neg (hno y (List.mem_of_getElem? hi))]
          exact hidx
      simp only [Rd.named, this]
    · rw [Rd.hasName, List.any_eq_false]
      intro x hx
      simp [hno x hx]

end Verif.Extra
