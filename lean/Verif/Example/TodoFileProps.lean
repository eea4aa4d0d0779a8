import Verif.Example.TodoFile
import Verif.Example.TodoProps
import Verif.Extra.CerealProps

/-!
C142: the files of the todo example.
-/

namespace Verif.Todo

open Verif.Extra (Node Codec Kind Err Any Fields Rd)

/-! ### Spec -/

/-- An object has distinct names. -/
def Distinct : Node Json → Prop
  | .leaf _ => True
  | .node _ ch => (ch.filterMap (·.1)).Nodup

/-- What an object has under a name: a value, or nothing, which only the patched archive allows. -/
def Has (k : Kind) (ch : List (Option String × Node Json)) (name : String) (v absent : Json) : Prop :=
  (some name, .leaf v) ∈ ch ∨ k = .json ∧ (∀ n, (some name, n) ∉ ch) ∧ v = absent

/-- A part of a document is an item. -/
def IsItem (k : Kind) (n : Node Json) (x : Item) : Prop :=
  ∃ s ch, n = .node s ch ∧ Has k ch "done" (.bool x.done) (.bool false) ∧ Has k ch "text" (.str x.text) (.str "")

/-- A document is a list of items. -/
def IsDoc (k : Kind) (n : Node Json) (d : Doc) : Prop :=
  ∃ s ch, n = .node s ch ∧
    ((∃ s' ch', (some "todos", .node s' ch') ∈ ch ∧ d.length = ch'.length ∧
        ∀ (i : Nat) (c : Option String × Node Json) (x : Item), ch'[i]? = some c → d[i]? = some x → IsItem k c.2 x) ∨
      k = .json ∧ (∀ n, (some "todos", n) ∉ ch) ∧ d = [])

/-- All objects of a document that matter have distinct names. -/
def AllDistinct (n : Node Json) : Prop :=
  Distinct n ∧ ∀ s ch s' ch' c, n = .node s ch → (some "todos", .node s' ch') ∈ ch → c ∈ ch' → Distinct c.2

/-! ### Proofs -/

open Verif.Extra in
theorem child_none {P : Type} {ch : List (Option String × Node P)} {name : String} :
    child ch name = none ↔ ∀ n, (some name, n) ∉ ch := by
  unfold child
  rw [Option.map_eq_none_iff, List.find?_eq_none]
  constructor
  · intro h n hn
    exact h _ hn (by simp)
  · intro h x hx he
    have he : x.1 = some name := by simpa using he
    exact h x.2 (by rw [← he]; exact hx)

open Verif.Extra in
theorem child_some {P : Type} {ch : List (Option String × Node P)} (hd : (ch.filterMap (·.1)).Nodup) {name : String}
    {n : Node P} : child ch name = some n ↔ (some name, n) ∈ ch := by
  refine ⟨fun h => ?_, find_of_mem hd⟩
  unfold child at h
  rw [Option.map_eq_some_iff] at h
  obtain ⟨x, h1, h2⟩ := h
  have h3 := List.find?_some h1
  have h3 : x.1 = some name := by simpa using h3
  rw [← h2, ← h3]
  exact List.mem_of_find?_eq_some h1

/-- A member of a struct is loaded. -/
def loadMember {A : Type} (k : Kind) (ch : List (Option String × Node Json)) (name : String) (c : Codec Json A) (t : A) :
    A × Option Err :=
  match Extra.child ch name with
  | some n => c.load k t n
  | none => (t, if k = .json then none else some .archive)

open Verif.Extra in
theorem fields_cons {k : Kind} (hk : k ≠ .binary) {ch : List (Option String × Node Json)}
    (hd : (ch.filterMap (·.1)).Nodup) (f : String × Any Json) (fs : List (String × Any Json)) (t : Fields (f :: fs)) (i : Nat) :
    ∃ j, Fields.load true k (f :: fs) t ⟨ch, i⟩ =
      match loadMember k ch f.1 f.2.c t.1 with
      | (x, none) => ((x, (Fields.load true k fs t.2 ⟨ch, j⟩).1), (Fields.load true k fs t.2 ⟨ch, j⟩).2)
      | (x, some e) => ((x, t.2), some e) := by
  have hn : Rd.named ⟨ch, i⟩ k f.1 = Rd.named ⟨ch, i⟩ .json f.1 := by
    cases k with
    | binary => exact absurd rfl hk
    | text => rfl
    | json => rfl
  rw [Fields.load]
  unfold loadMember
  rcases named_child hd i f.1 with ⟨h1, h2, h3⟩ | ⟨n, j, h1, h2, h3⟩
  · refine ⟨i, ?_⟩
    rw [hn, h1, h2, h3]
    cases k with
    | binary => exact absurd rfl hk
    | text => rfl
    | json => rfl
  · refine ⟨j, ?_⟩
    rw [hn, h1, h2, h3]
    simp only [Bool.not_true, Bool.and_false, Bool.false_eq_true, if_false]
    rcases f.2.c.load k t.1 n with ⟨x, _ | e⟩ <;> rfl

theorem done_iff {k : Kind} {ch : List (Option String × Node Json)} (hd : (ch.filterMap (·.1)).Nodup) {name : String}
    {b : Bool} : loadMember k ch name doneCodec false = (b, none) ↔ Has k ch name (.bool b) (.bool false) := by
  unfold loadMember Has
  cases h : Extra.child ch name with
  | none =>
    have h' := child_none.1 h
    by_cases hk : k = .json
    · simp [hk, h', eq_comm]
    · simp [hk, h']
  | some n =>
    have h' := (child_some hd).1 h
    have hu : ∀ n', (some name, n') ∈ ch ↔ n' = n := by
      intro n'
      rw [← child_some hd, h]
      simp [eq_comm]
    simp only [hu]
    cases n with
    | leaf p => cases p <;> simp [doneCodec, Extra.prim, Json.bool?, eq_comm]
    | node s c => simp [doneCodec, Extra.prim]

theorem text_iff {k : Kind} {ch : List (Option String × Node Json)} (hd : (ch.filterMap (·.1)).Nodup) {name : String}
    {b : String} : loadMember k ch name textCodec "" = (b, none) ↔ Has k ch name (.str b) (.str "") := by
  unfold loadMember Has
  cases h : Extra.child ch name with
  | none =>
    have h' := child_none.1 h
    by_cases hk : k = .json
    · simp [hk, h', eq_comm]
    · simp [hk, h']
  | some n =>
    have h' := (child_some hd).1 h
    have hu : ∀ n', (some name, n') ∈ ch ↔ n' = n := by
      intro n'
      rw [← child_some hd, h]
      simp [eq_comm]
    simp only [hu]
    cases n with
    | leaf p => cases p <;> simp [textCodec, Extra.prim, Json.str?, eq_comm]
    | node s c => simp [textCodec, Extra.prim]

theorem item_iff {k : Kind} (hk : k ≠ .binary) {n : Node Json} (hd : Distinct n) {t : Fields itemFields} :
    itemCodec.loadNew k n = .ok t ↔ IsItem k n (Item.ofFields t) := by
  cases n with
  | leaf p =>
    constructor
    · intro h; cases h
    · rintro ⟨s, ch, h, _⟩; cases h
  | node s ch =>
    have hd : (ch.filterMap (·.1)).Nodup := hd
    obtain ⟨b, str, ⟨⟩⟩ := t
    have hi : IsItem k (.node s ch) (Item.ofFields (b, str, ())) ↔
        loadMember k ch "done" doneCodec false = (b, none) ∧ loadMember k ch "text" textCodec "" = (str, none) := by
      rw [done_iff hd, text_iff hd]
      constructor
      · rintro ⟨_, _, h, h1, h2⟩; cases h; exact ⟨h1, h2⟩
      · rintro ⟨h1, h2⟩; exact ⟨_, _, rfl, h1, h2⟩
    rw [hi]
    have hl : itemCodec.load k itemCodec.fresh (.node s ch) = Extra.Fields.load true k itemFields (false, "", ()) ⟨ch, 0⟩ := rfl
    unfold Extra.Codec.loadNew
    rw [hl]
    obtain ⟨j, h1⟩ := fields_cons hk hd ("done", ⟨Bool, doneCodec⟩) [("text", ⟨String, textCodec⟩)] (false, "", ()) 0
    obtain ⟨j', h2⟩ := fields_cons hk hd ("text", ⟨String, textCodec⟩) [] ("", ()) j
    rw [show Extra.Fields.load true k itemFields (false, "", ()) ⟨ch, 0⟩ = _ from h1]
    simp only
    rcases hb : loadMember k ch "done" doneCodec false with ⟨b', _ | e⟩
    · simp only [h2]
      rcases hs : loadMember k ch "text" textCodec "" with ⟨s', _ | e⟩
      · simp only [Extra.Fields.load, Prod.mk.injEq, and_true]
        constructor
        · intro h; cases h; exact ⟨rfl, rfl⟩
        · rintro ⟨rfl, rfl⟩; rfl
      · simp
    · simp

theorem seq_iff {k : Kind} (hk : k ≠ .binary) {all : List (Option String × Node Json)} (hd : ∀ c ∈ all, Distinct c.2) :
    ∀ (rest : List (Option String × Node Json)) (i : Nat) (acc l : List (Fields itemFields)), all.drop i = rest →
    (Extra.loadSeq itemCodec k rest.length ⟨all, i⟩ acc = .ok l ↔
      ∃ r, l = acc ++ r ∧ r.length = rest.length ∧
        ∀ (j : Nat) c t, rest[j]? = some c → r[j]? = some t → IsItem k c.2 (Item.ofFields t)) := by
  intro rest
  induction rest with
  | nil =>
    intro i acc l _
    simp only [List.length_nil, Extra.loadSeq]
    constructor
    · intro h; cases h; exact ⟨[], by simp, rfl, by simp⟩
    · rintro ⟨r, rfl, h, _⟩
      rw [List.length_eq_zero_iff.1 h]; simp
  | cons c rest ih =>
    intro i acc l hr
    have hc : all[i]? = some c := by
      have := congrArg (·[0]?) hr
      simpa using this
    have hr' : all.drop (i + 1) = rest := by
      rw [← List.drop_drop, hr]; rfl
    have hdc := hd c (List.mem_of_getElem? hc)
    simp only [List.length_cons, Extra.loadSeq, Extra.Rd.next, hc]
    cases hn : itemCodec.loadNew k c.2 with
    | error e =>
      simp only [reduceCtorEq, false_iff]
      rintro ⟨r, _, h1, h2⟩
      cases r with
      | nil => cases h1
      | cons t r =>
        have := (item_iff hk hdc).2 (h2 0 c t rfl rfl)
        rw [hn] at this; cases this
    | ok t =>
      rw [ih (i + 1) (acc ++ [t]) l hr']
      constructor
      · rintro ⟨r, rfl, h1, h2⟩
        refine ⟨t :: r, by simp, by simp [h1], ?_⟩
        intro j c' t' h3 h4
        cases j with
        | zero => cases h3; cases h4; exact (item_iff hk hdc).1 hn
        | succ j => exact h2 j c' t' (by simpa using h3) (by simpa using h4)
      · rintro ⟨r, rfl, h1, h2⟩
        cases r with
        | nil => cases h1
        | cons t' r =>
          have := (item_iff hk hdc).2 (h2 0 c t' rfl rfl)
          rw [hn] at this; cases this
          exact ⟨r, by simp, by simpa using h1, fun j c' t' h3 h4 => h2 (j + 1) c' t' (by simpa using h3) (by simpa using h4)⟩

theorem ofFields_inj : ∀ t t' : Fields itemFields, Item.ofFields t = Item.ofFields t' → t = t' := by
  rintro ⟨b, s, ⟨⟩⟩ ⟨b', s', ⟨⟩⟩ h
  cases h; rfl

theorem ofFields_toFields (x : Item) : Item.ofFields x.toFields = x := rfl

/-- Loading the list. -/
theorem todos_iff {k : Kind} (hk : k ≠ .binary) {s : Option Nat} {ch : List (Option String × Node Json)}
    (hd : ∀ c ∈ ch, Distinct c.2) {l : List (Fields itemFields)} :
    (Extra.seq itemCodec).load k [] (.node s ch) = (l, none) ↔ l.length = ch.length ∧
      ∀ (i : Nat) c t, ch[i]? = some c → l[i]? = some t → IsItem k c.2 (Item.ofFields t) := by
  have hs : Extra.size k (.node s ch) = .ok ch.length := by
    cases k with
    | binary => exact absurd rfl hk
    | text => rfl
    | json => rfl
  cases hc : ch with
  | nil =>
    subst hc
    simp only [Extra.seq, hs, List.length_nil, Prod.mk.injEq, and_true]
    constructor
    · rintro rfl; exact ⟨rfl, by simp⟩
    · rintro ⟨h, _⟩; exact (List.length_eq_zero_iff.1 h).symm
  | cons c cs =>
    have key := seq_iff hk hd ch 0 [] l (by simp)
    rw [hc] at hs key
    simp only [List.nil_append, exists_eq_left'] at key
    rw [← key]
    simp only [Extra.seq, hs, List.length_cons, Extra.Node.start]
    split <;> simp_all

/-! ### C142 -/

/-- C142: which files can be loaded, and what they are.  With the patched archive, what is missing has its initial value. -/
theorem C142_load {k : Kind} (hk : k ≠ .binary) {n : Node Json} (hn : AllDistinct n) (d : Doc) :
    loadFile k (some n) = .ok d ↔ IsDoc k n d := by
  obtain ⟨hd, hd'⟩ := hn
  cases n with
  | leaf p =>
    constructor
    · intro h; cases h
    · rintro ⟨s, ch, h, _⟩; cases h
  | node s ch =>
    have hd : (ch.filterMap (·.1)).Nodup := hd
    obtain ⟨j, h1⟩ := fields_cons hk hd ("todos", ⟨List (Fields itemFields), Extra.seq itemCodec⟩) [] (([] : List _), ()) 0
    have hl : docCodec.load k docCodec.fresh (.node s ch) = Extra.Fields.load true k docFields (([] : List _), ()) ⟨ch, 0⟩ := rfl
    have hload : loadFile k (some (.node s ch)) = .ok d ↔
        loadMember k ch "todos" (Extra.seq itemCodec) [] = (d.map Item.toFields, none) := by
      unfold loadFile
      simp only
      rw [hl, show Extra.Fields.load true k docFields (([] : List _), ()) ⟨ch, 0⟩ = _ from h1]
      simp only
      rcases loadMember k ch "todos" (Extra.seq itemCodec) [] with ⟨l, _ | e⟩
      · simp only [Extra.Fields.load, Except.ok.injEq, Prod.mk.injEq, and_true]
        constructor
        · rintro rfl
          rw [List.map_map]
          refine (List.map_id'' (fun t => ?_) l).symm
          exact ofFields_inj _ _ rfl
        · intro h
          have h : l = d.map Item.toFields := h
          rw [h, List.map_map]
          exact List.map_id'' (fun x => rfl) d
      · simp
    rw [hload]
    unfold loadMember
    cases hc : Extra.child ch "todos" with
    | none =>
      have hc' := child_none.1 hc
      simp only [Prod.mk.injEq]
      constructor
      · rintro ⟨h2, h3⟩
        have hj : k = .json := by
          by_cases hj : k = .json
          · exact hj
          · rw [if_neg hj] at h3; cases h3
        refine ⟨s, ch, rfl, .inr ⟨hj, hc', ?_⟩⟩
        cases d with
        | nil => rfl
        | cons => cases h2
      · rintro ⟨_, _, h, h'⟩
        cases h
        rcases h' with ⟨_, _, h2, _⟩ | ⟨rfl, _, rfl⟩
        · exact absurd h2 (hc' _)
        · exact ⟨rfl, rfl⟩
    | some m =>
      have hm := (child_some hd).1 hc
      have hu : ∀ n', (some "todos", n') ∈ ch → n' = m := by
        intro n' h
        have := (child_some hd).2 h
        rw [hc] at this
        cases this; rfl
      cases m with
      | leaf p =>
        constructor
        · intro h
          have : (Extra.seq itemCodec).load k [] (.leaf p) = ([], some .archive) := by
            cases k <;> rfl
          simp only [this] at h
          cases congrArg Prod.snd h
        · rintro ⟨_, _, h, h'⟩
          cases h
          rcases h' with ⟨_, _, h2, _⟩ | ⟨_, h2, _⟩
          · cases hu _ h2
          · exact absurd hm (h2 _)
      | node s' ch' =>
        simp only
        rw [todos_iff hk (fun c hc => hd' s ch s' ch' c rfl hm hc)]
        have hidx : ∀ (i : Nat) t, (d.map Item.toFields)[i]? = some t ↔ d[i]? = some (Item.ofFields t) := by
          intro i t
          rw [List.getElem?_map]
          constructor
          · intro h
            rw [Option.map_eq_some_iff] at h
            obtain ⟨x, h2, h3⟩ := h
            rw [h2, ← h3]; rfl
          · intro h
            rw [h]
            exact congrArg some (ofFields_inj _ _ rfl)
        constructor
        · rintro ⟨h2, h3⟩
          exact ⟨s, ch, rfl, .inl ⟨s', ch', hm, by simpa using h2, fun i c x h4 h5 =>
            h3 i c x.toFields h4 ((hidx _ _).2 h5)⟩⟩
        · rintro ⟨_, _, h, h'⟩
          cases h
          rcases h' with ⟨s2, ch2, h2, h3, h4⟩ | ⟨_, h2, _⟩
          · cases hu _ h2
            exact ⟨by simpa using h3, fun i c t h5 h6 => h4 i c _ h5 ((hidx _ _).1 h6)⟩
          · exact absurd hm (h2 _)

/-- A list of items as JSON. -/
def written (d : Doc) : Node Json :=
  .node none [(some "todos", .node (some d.length) (d.map fun x =>
    (none, .node none [(some "done", .leaf (.bool x.done)), (some "text", .leaf (.str x.text))])))]

/-- C142: what is saved is `{"todos": [{"done": …, "text": …}, …]}`, and loads back, with and without the patch, whatever the list
and the texts are. -/
theorem C142_saved (d : Doc) : saveFile d = written d ∧
    ∀ k, k ≠ .binary → loadFile k (some (saveFile d)) = .ok d := by
  have hw : saveFile d = written d := by
    unfold saveFile written
    show Node.node none [(some "todos", Node.node (some (d.map Item.toFields).length)
      ((d.map Item.toFields).map fun x => (none, itemCodec.save x)))] = _
    rw [List.length_map, List.map_map]
    rfl
  refine ⟨hw, fun k hk => ?_⟩
  rw [hw]
  refine (C142_load hk ⟨by simp [Distinct, written], ?_⟩ d).2 ⟨_, _, rfl, .inl ⟨_, _, List.mem_singleton.2 rfl, by simp, ?_⟩⟩
  · intro s ch s' ch' c h1 h2 h3
    cases h1
    cases List.mem_singleton.1 h2
    obtain ⟨x, _, rfl⟩ := List.mem_map.1 h3
    simp [Distinct]
  · intro i c x h1 h2
    rw [List.getElem?_map, h2] at h1
    cases h1
    exact ⟨_, _, rfl, .inl (by simp), .inl (by simp)⟩

/-- C142: a file that was written can be read as the document that was saved, and one that cannot be opened, is no JSON, or
cannot be loaded, is reported: this is what C124 takes for granted. -/
theorem C142_content {k : Kind} (hk : k ≠ .binary) : (∀ d, contentOf k (some (saveFile d)) = .doc d) ∧
    contentOf k none = .broken ∧ ∀ n, AllDistinct n → (∀ d, ¬ IsDoc k n d) → contentOf k (some n) = .broken := by
  refine ⟨fun d => by rw [contentOf, (C142_saved d).2 k hk], rfl, fun n hn h => ?_⟩
  unfold contentOf
  cases hl : loadFile k (some n) with
  | error e => rfl
  | ok d => exact absurd ((C142_load hk hn d).1 hl) (h d)

/-- C142 is FALSE for files of other programs: with the patched archive, any object without the name `todos` is loaded as an empty
list: the document is lost, and no error is reported. -/
theorem C142_other_false (ext : String → String) (s : Sys String) (file : String) {sz : Option Nat}
    {ch : List (Option String × Node Json)} (hd : (ch.filterMap (·.1)).Nodup) (hno : ∀ n, (some "todos", n) ∉ ch)
    (hf : s.files file = some (contentOf .json (some (.node sz ch)))) (hq : s.queue = [.eff (.load file)]) (d d' : Disk) :
    ((s.step ext (.work d)).step ext (.work d')).app = ⟨[], file⟩ ∧
    ((s.step ext (.work d)).step ext (.work d')).errors = s.errors := by
  have hl : loadFile .json (some (.node sz ch)) = .ok [] :=
    (C142_load (k := .json) nofun (n := .node sz ch)
      ⟨hd, fun s ch s' ch' c h1 h2 => by cases h1; exact absurd h2 (hno _)⟩ []).2
      ⟨_, _, rfl, .inr ⟨rfl, hno, rfl⟩⟩
  rw [contentOf, hl] at hf
  refine ⟨C124_load ext s file [] hq hf d d' [] rfl, ?_⟩
  simp only [Sys.step, hq, perform, hf, List.nil_append, update]

/-- C142: without the patch it is reported. -/
theorem C142_other {sz : Option Nat} {ch : List (Option String × Node Json)} (hd : (ch.filterMap (·.1)).Nodup)
    (hno : ∀ n, (some "todos", n) ∉ ch) : contentOf .text (some (.node sz ch)) = .broken := by
  refine (C142_content (k := .text) nofun).2.2 _ ⟨hd, fun s ch s' ch' c h1 h2 => by cases h1; exact absurd h2 (hno _)⟩ ?_
  rintro d ⟨_, _, h, h'⟩
  cases h
  rcases h' with ⟨_, _, h1, _⟩ | ⟨h1, _⟩
  · exact hno _ h1
  · cases h1

/-- C142 is FALSE: an item without a text, which `update` never makes, can come from a file. -/
theorem C142_text_false : ∃ n, loadFile .json (some n) = .ok [⟨true, ""⟩] :=
  ⟨.node none [(some "todos", .node none [(none, .node none [(some "done", .leaf (.bool true))])])], by rfl⟩

/-! ### Examples -/

def exNode : Node Json := .node none [(some "version", .leaf .other), (some "todos", .node none
  [(none, .node none [(some "text", .leaf (.str "a")), (some "done", .leaf (.bool true))]),
   (none, .node none [(some "text", .leaf (.str "b"))])])]

example : loadFile .json (some exNode) = .ok [⟨true, "a"⟩, ⟨false, "b"⟩] ∧ loadFile .text (some exNode) = .error .archive :=
  ⟨rfl, rfl⟩

example : AllDistinct exNode := by
  refine ⟨by simp [Distinct, exNode], ?_⟩
  intro s ch s' ch' c h1 h2 h3
  cases h1
  simp only [List.mem_cons, Prod.mk.injEq, List.not_mem_nil, or_false, Option.some.injEq] at h2
  rcases h2 with ⟨h, _⟩ | ⟨_, h⟩
  · exact absurd h (by decide)
  · cases h
    simp only [List.mem_cons, List.not_mem_nil, or_false] at h3
    rcases h3 with rfl | rfl <;> simp [Distinct]

/-- Another program's file. -/
example : ∃ s : Sys String, s.queue = [.eff (.load "package.json")] ∧
    s.files "package.json" = some (contentOf .json (some (.node none [(some "name", .leaf (.str "x"))]))) ∧
    s.app.doc = [⟨false, "write"⟩] :=
  ⟨⟨⟨[⟨false, "write"⟩], ""⟩, [.eff (.load "package.json")], fun _ => some (contentOf .json (some (.node none [(some "name", .leaf (.str "x"))]))), []⟩,
    rfl, rfl, rfl⟩

/-- A value of a wrong type is reported. -/
example : contentOf .json (some (.node none [(some "todos", .leaf (.str "x"))])) = .broken := rfl

end Verif.Todo
