import Verif.Smart.Chain

/-
C99: `cursor[k1][k2]...` reads and writes the place one would expect.
-/

namespace Verif.Smart

open Verif.Lens (Style seqCont mapCont)
open Verif.LensMove (Expr Husk husk MLens)

theorem Shows.stands {t a b : Ty} {p : Path t a} {l : MLens t.den b.den} (h : Shows p b l) :
    Stands p b l.view l.rset := by
  cases h with
  | plain p l ht hf hv hs => exact .always p _ _ hf hv hs
  | opt p l ht hf hv hs hn => exact .perhaps p _ _ hf hv hs hn
  | flat p l ht hf hm hv hs hn =>
    refine .nullable p _ _ hf hm ?_ hs ?_
    · intro v x
      rw [hv v]
      constructor
      · intro h
        cases hp : find p v with
        | none =>
          rw [hp] at h
          exact nomatch h
        | some w =>
          rw [hp] at h
          exact congrArg some h
      · intro h
        rw [h]
        rfl
    · intro v
      rw [hn v, wipe_nokey p v hm]

/-- C99: whenever `cursor[k1]...[kn]` with keys, indices and pointers to members compiles, there is a
place with these subscripts in the values of the cursor, and reading and writing through the
expression is reading from and writing to it. -/
theorem C99_place (t : Ty) (ks : List Key) (hk : ∀ k, k ∈ ks → k.plain) (l : Typed t)
    (h : chain t ks = some l) :
    ∃ (a : Ty) (p : Path t a), p.keys = ks ∧ p.tight ∧ Stands p l.part l.lens.move.view l.lens.move.rset := by
  obtain ⟨a, p, h1, h2, h3⟩ := chain_from ks ⟨t, .ident⟩ (.nil : Path t t) trivial (shows_ident t) hk l h
  exact ⟨a, p, h1, h2, h3.stands⟩

/-- C99: there is only one place with these subscripts. -/
theorem C99_unique {t a b : Ty} (p : Path t a) (q : Path t b) (hp : p.tight) (hq : q.tight)
    (h : p.keys = q.keys) : ∃ e : a = b, e ▸ p = q := by
  induction p with
  | nil =>
    cases q with
    | nil => exact ⟨rfl, rfl⟩
    | inside q => exact absurd h.symm hq.1
    | pos k q => exact nomatch h
    | key k q => exact nomatch h
    | mem i q => exact nomatch h
  | inside p ih =>
    cases q with
    | nil => exact absurd h hp.1
    | inside q =>
      obtain ⟨rfl, rfl⟩ := ih q hp.2 hq.2 h
      exact ⟨rfl, rfl⟩
  | pos k p ih =>
    cases q with
    | nil => exact nomatch h
    | pos j q =>
      simp only [Path.keys, List.cons.injEq, Key.at.injEq] at h
      obtain ⟨rfl, h⟩ := h
      obtain ⟨rfl, rfl⟩ := ih q hp hq h
      exact ⟨rfl, rfl⟩
  | key k p ih =>
    cases q with
    | nil => exact nomatch h
    | key j q =>
      simp only [Path.keys, List.cons.injEq, Key.at.injEq] at h
      obtain ⟨rfl, h⟩ := h
      obtain ⟨rfl, rfl⟩ := ih q hp hq h
      exact ⟨rfl, rfl⟩
  | mem i p ih =>
    cases q with
    | nil => exact nomatch h
    | mem j q =>
      simp only [Path.keys, List.cons.injEq, Key.member.injEq] at h
      obtain ⟨hij, h⟩ := h
      have hij : i = j := Fin.ext hij
      subst hij
      obtain ⟨rfl, rfl⟩ := ih q hp hq h
      exact ⟨rfl, rfl⟩

theorem Path.plain_keys {t a : Ty} (p : Path t a) : ∀ k, k ∈ p.keys → k.plain := by
  induction p with
  | nil => intro k hk; exact nomatch hk
  | inside p ih => exact ih
  | pos j p ih | key j p ih | mem j p ih =>
    intro k hk
    rcases List.mem_cons.mp hk with rfl | hk
    · exact trivial
    · exact ih k hk

/-- The first subscript of a place. -/
theorem split_path {t d : Ty} (q : Path t d) (hq : q.tight) {k : Key} {ks : List Key}
    (h : q.keys = k :: ks) : ∃ (a : Ty) (q1 : Path t a) (q2 : Path a d), q = q1.app q2 ∧ q1.keys = [k] ∧
      q1.tight ∧ q2.tight ∧ q2.keys = ks := by
  induction q with
  | nil => exact nomatch h
  | inside q ih =>
    obtain ⟨a, q1, q2, rfl, h1, h2, h3, h4⟩ := ih hq.2 h
    exact ⟨a, .inside q1, q2, rfl, h1, ⟨by rw [h1]; simp, h2⟩, h3, h4⟩
  | @pos s t a j q ih =>
    cases h
    exact ⟨t, .pos j .nil, q, rfl, rfl, trivial, hq, rfl⟩
  | @key s t a j q ih =>
    cases h
    exact ⟨t, .key j .nil, q, rfl, rfl, trivial, hq, rfl⟩
  | @mem n fs a i q ih =>
    cases h
    exact ⟨fs i, .mem i .nil, q, rfl, rfl, trivial, hq, rfl⟩

/-- The first subscript of a place compiles. -/
theorem smart_some {t d : Ty} (q : Path t d) {k : Key} {ks : List Key} (h : q.keys = k :: ks) :
    ∃ m, smart t k = some m := by
  induction q with
  | nil => exact nomatch h
  | inside q ih =>
    obtain ⟨m, hm⟩ := ih h
    have hk : k.plain := q.plain_keys k (by rw [show q.keys = _ from h]; simp)
    cases k with
    | lens l => exact hk.elim
    | «at» k => exact ⟨m.lift, by simp [smart, hm]⟩
    | member k => exact ⟨m.lift, by simp [smart, hm]⟩
  | pos j q ih =>
    cases h
    exact ⟨_, rfl⟩
  | key j q ih =>
    cases h
    exact ⟨_, rfl⟩
  | mem i q ih =>
    cases h
    exact ⟨_, by simp only [smart]; rw [dif_pos i.2]⟩

theorem Shows.type {t a b : Ty} {p : Path t a} {l : MLens t.den b.den} (h : Shows p b l) :
    b = a ∨ b = .opt a := by
  cases h with
  | plain => exact .inl rfl
  | opt => exact .inr rfl
  | flat => exact .inl rfl

/-- C99: subscripts of places compile. -/
theorem chain_compiles {t : Ty} (ks : List Key) : ∀ (l : Typed t) {a d : Ty} (p : Path t a)
    (q : Path a d), p.tight → q.tight → Shows p l.part l.lens.move → q.keys = ks →
    ∃ l', ks.foldlM Typed.sub l = some l' := by
  induction ks with
  | nil => intro l a d p q _ _ _ _; exact ⟨l, rfl⟩
  | cons k ks ih =>
    intro l a d p q hp hq hs hk
    have hkp : k.plain := q.plain_keys k (by rw [hk]; simp)
    have ⟨m, hm⟩ : ∃ m, smart l.part k = some m := by
      obtain ⟨m, hm⟩ := smart_some q hk
      rcases hs.type with e | e
      · rw [e]
        exact ⟨m, hm⟩
      · rw [e]
        cases k with
        | lens l => exact hkp.elim
        | «at» k => exact ⟨m.lift, by simp [smart, hm]⟩
        | member k => exact ⟨m.lift, by simp [smart, hm]⟩
    obtain ⟨a1, q1, q2, rfl, h1, h2, h3, h4⟩ := split_path q hq hk
    obtain ⟨d1, r, hr, hrt, hrs⟩ := smart_single hkp hm
    obtain ⟨p', hp', hpt', hps'⟩ := hs.comp (by rw [hr]; simp) hrt hrs.1
    have hu := C99_unique p' (p.app q1) hpt' (tight_app p q1 (by rw [h1]; simp) h2)
      (by rw [hp', hr, keys_app, h1])
    obtain ⟨rfl, rfl⟩ := hu
    obtain ⟨l', hl'⟩ := ih ⟨m.part, .comp l.lens m.lens⟩ (p.app q1) q2 hpt' h3 hps' h4
    refine ⟨l', ?_⟩
    rw [List.foldlM_cons]
    simpa [Typed.sub, hm] using hl'

/-- C99: every place can be reached by subscripts, and the expression with the subscripts of a place
reads and writes it. -/
theorem C99_reaches {t a : Ty} (p : Path t a) (hp : p.tight) :
    ∃ l, chain t p.keys = some l ∧ Stands p l.part l.lens.move.view l.lens.move.rset := by
  obtain ⟨l, hl⟩ := chain_compiles p.keys ⟨t, .ident⟩ (.nil : Path t t) p trivial hp (shows_ident t) rfl
  obtain ⟨a', p', h1, h2, h3⟩ := C99_place t p.keys p.plain_keys l hl
  obtain ⟨rfl, rfl⟩ := C99_unique p' p h2 hp h1
  exact ⟨l, hl, h3⟩

/-- What reading and writing a place do to each other. -/
theorem Stands.unread {t a b : Ty} {p : Path t a} {get : t.den → b.den} {set : t.den → b.den → t.den}
    (h : Stands p b get set) {d c : Ty} {q : Path t d} {get' : t.den → c.den}
    {set' : t.den → c.den → t.den} (h' : Stands q c get' set') (hpq : Apart p q) (v : t.den) (x : b.den) :
    get' (set v x) = get' v := by
  have hw : ∀ y, find q (put p v y) = find q v := fun y => find_apart hpq v y
  have he : find q (emptied p v) = find q v := by
    unfold emptied
    cases find p v with
    | none => rfl
    | some w => exact hw _
  have hset : find q (set v x) = find q v := by
    cases h with
    | always _ _ _ hf hr hs => rw [hs]; exact hw x
    | perhaps _ _ _ hf hr hs hn =>
      cases (x : Option a.den) with
      | none =>
        rw [hn]
        cases p.keyLast
        · exact he
        · rfl
      | some y => rw [hs]; exact hw y
    | @nullable c _ _ _ hf hm hr hs hn =>
      cases (x : Option c.den) with
      | none => rw [hn]; exact he
      | some y => rw [hs]; exact hw _
  clear h
  generalize hw' : set v x = u at hset ⊢
  clear hw'
  cases h' with
  | always q get' set' hf hr hs =>
    have := (hr u).symm.trans (hset.trans (hr v))
    exact Option.some.inj this
  | perhaps q get' set' hf hr hs hn => rw [hr, hr, hset]
  | @nullable c q get' set' hf hm hr hs hn =>
    have e : ∀ y, (get' u : Option c.den) = some y ↔ (get' v : Option c.den) = some y := by
      intro y
      rw [hr, hr, hset]
    exact Option.ext e

/-- C99: writing through one expression does not change what another one shows, if their subscripts
part ways; not even when `nullopt` is written. -/
theorem C99_others {t a d : Ty} {p : Path t a} {q : Path t d} (hp : p.tight) (hq : q.tight)
    (hpq : Apart p q) (l l' : Typed t) (h : chain t p.keys = some l) (h' : chain t q.keys = some l')
    (v : t.den) (x : l.part.den) :
    l'.lens.move.view (l.lens.move.rset v x) = l'.lens.move.view v := by
  obtain ⟨l1, h1, hs1⟩ := C99_reaches p hp
  obtain ⟨l2, h2, hs2⟩ := C99_reaches q hq
  rw [h] at h1
  rw [h'] at h2
  cases h1
  cases h2
  exact hs1.unread hs2 hpq v x

theorem Stands.written {t a b : Ty} {p : Path t a} {get : t.den → b.den} {set : t.den → b.den → t.den}
    (h : Stands p b get set) (v : t.den) (x : b.den) :
    ((find p v).isSome → p.fails = false ∨ present b x → get (set v x) = x) ∧
    (find p v = none → set v x = v) := by
  have hem : find p v = none → emptied p v = v := by
    intro hn
    unfold emptied
    rw [hn]
  cases h with
  | always p get set hf hr hs =>
    have hx : get (set v x) = x := by
      have h1 := hr (set v x)
      rw [hs, find_put p v x (by rw [hr]; rfl)] at h1
      rw [hs]
      exact (Option.some.inj h1).symm
    exact ⟨fun _ _ => hx, fun hn => by rw [hr] at hn; exact nomatch hn⟩
  | perhaps p get set hf hr hs hn =>
    refine ⟨?_, ?_⟩
    · intro hfound hx
      rcases hx with hx | hx
      · rw [hf] at hx
        exact nomatch hx
      · cases hxx : (x : Option a.den) with
        | none =>
          rw [show x = none from hxx] at hx
          exact nomatch hx
        | some y =>
          rw [hr, hs]
          exact find_put p v y hfound
    · intro hmiss
      cases (x : Option a.den) with
      | none =>
        rw [hn, hem hmiss]
        exact ite_self _
      | some y => rw [hs]; exact put_missing p v y hmiss
  | @nullable c p get set hf hm hr hs hn =>
    refine ⟨?_, ?_⟩
    · intro hfound hx
      rcases hx with hx | hx
      · rw [hf] at hx
        exact nomatch hx
      · cases hxx : (x : Option c.den) with
        | none =>
          rw [show x = none from hxx] at hx
          exact nomatch hx
        | some y =>
          rw [hr, hs]
          exact find_put p v _ hfound
    · intro hmiss
      cases (x : Option c.den) with
      | none => rw [hn, hem hmiss]
      | some y => rw [hs]; exact put_missing p v _ hmiss

/-- C99: an expression shows what was written through it, unless that is `nullopt` or there is no such
place; if there is no such place nothing changes. -/
theorem C99_written {t a : Ty} {p : Path t a} (hp : p.tight) (l : Typed t)
    (h : chain t p.keys = some l) (v : t.den) (x : l.part.den) :
    ((find p v).isSome → p.fails = false ∨ present l.part x →
      l.lens.move.view (l.lens.move.rset v x) = x) ∧
    (find p v = none → l.lens.move.rset v x = v) := by
  obtain ⟨l1, h1, hs⟩ := C99_reaches p hp
  rw [h] at h1
  cases h1
  exact hs.written v x

/-- C99: writing `nullopt` where the last subscript is a key or an index changes nothing; where it is a
member, after something that can fail, the content of the member is lost. -/
theorem C99_null {t a : Ty} {p : Path t a} (hp : p.tight) (hf : p.fails = true) (l : Typed t)
    (h : chain t p.keys = some l) (v : t.den) (x : l.part.den) (hx : ¬ present l.part x) :
    l.lens.move.rset v x = if p.keyLast then v else emptied p v := by
  obtain ⟨l1, h1, hs⟩ := C99_reaches p hp
  rw [h] at h1
  cases h1
  generalize l.lens.move.view = get at hs
  generalize l.lens.move.rset = set at hs ⊢
  generalize l.part = b at *
  cases hs with
  | always p get set hf' hr hs =>
    rw [hf'] at hf
    exact nomatch hf
  | perhaps p get set _ hr hs hn =>
    cases hxx : (x : Option a.den) with
    | none => exact hn v
    | some y =>
      rw [show x = some y from hxx] at hx
      exact absurd rfl hx
  | @nullable c p get set _ hm hr hs hn =>
    cases hxx : (x : Option c.den) with
    | none =>
      rw [hm]
      exact hn v
    | some y =>
      rw [show x = some y from hxx] at hx
      exact absurd rfl hx

/-- `struct person { std::string name; int age; std::optional<std::string> nick; };` -/
def person : Ty := .struct 3 fun
  | 0 => .text
  | 1 => .num
  | 2 => .opt .text

/-- `std::vector<person>` -/
def people : Ty := .seq .inPlace person

/-- A person. -/
def mk (name : String) (age : Nat) (nick : Option String) : person.den := fun
  | 0 => name
  | 1 => age
  | 2 => nick

/-- Two persons. -/
def two : people.den := ([mk "ada" 36 (some "countess"), mk "bob" 7 none] : List person.den)

/-- The place of the name of person `k`. -/
def nameOf (k : Nat) : Path people .text := .pos k (.mem 0 .nil)
/-- The place of the nick of person `k`. -/
def nickOf (k : Nat) : Path people (.opt .text) := .pos k (.mem 2 .nil)

/-- C99: `people[0][&person::name].set(nullopt)` should be inert, as `people[0].set(nullopt)` is, but
it empties the name. -/
theorem C99_null_false : ∃ l : Expr people.den (Ty.opt .text).den,
    chain people [.at 0, .member 0] = some ⟨.opt .text, l⟩ ∧
    find (nameOf 0) two = some "ada" ∧ find (nameOf 0) (l.move.rset two none) = some "" ∧
    ∃ l' : Expr people.den (Ty.opt person).den, chain people [.at 0] = some ⟨.opt person, l'⟩ ∧
      l'.move.rset two none = two :=
  ⟨_, rfl, rfl, rfl, _, rfl, rfl⟩

/-- C99: an optional member cannot be set to `nullopt` after an index: it has an empty value afterwards.
Without the index it can. -/
theorem C99_clear_false : (∃ l : Expr people.den (Ty.opt .text).den,
      chain people [.at 0, .member 2] = some ⟨.opt .text, l⟩ ∧
      find (nickOf 0) (l.move.rset two none) = some (some "")) ∧
    (∃ l : Expr person.den (Ty.opt .text).den, chain person [.member 2] = some ⟨.opt .text, l⟩ ∧
      ∀ v, find (.mem 2 .nil) (l.move.rset v none) = some none) :=
  ⟨⟨_, rfl, rfl⟩, ⟨_, rfl, fun _ => rfl⟩⟩

/-- `lenses::or_default` and `lenses::value_or(d)` between brackets: they can be called with optionals
only. -/
def orElse (d : (t : Ty) → t.den) : Key :=
  .lens fun t => match t with
    | .opt c => some ⟨c, .valueOr (d c)⟩
    | _ => none

/-- C99: a lens that takes optionals is not lifted: `cursor[k][or_default]` shows the element or the
default value, and writing to it replaces the element if there is one. -/
theorem C99_or_default (s : Style) (t : Ty) (k : Nat) (d : (t : Ty) → t.den) :
    ∃ l : Expr (Ty.seq s t).den t.den, chain (.seq s t) [.at k, orElse d] = some ⟨t, l⟩ ∧
      ∀ (v : List t.den) (x : t.den), l.move.view v = (v[k]?).getD (d t) ∧ l.move.rset v x = v.set k x := by
  refine ⟨_, rfl, fun v x => ⟨?_, ?_⟩⟩
  · show (v[k]? : Option t.den).getD (d t) = _
    rfl
  · show Lens.atSetter (seqCont t.den s) v (some x) k = v.set k x
    cases s <;> simp only [Lens.atSetter, seqCont] <;>
      (cases hk : v[k]? with
        | none =>
          rw [List.getElem?_eq_none_iff] at hk
          exact (List.set_eq_of_length_le hk).symm
        | some y => rfl)

/-- C99: a lens that does not take optionals is lifted over as many as there are. -/
theorem C99_lifted (t : Ty) (L : (t : Ty) → Option (Typed t)) (h : L (.opt t) = none)
    (h' : L (.opt (.opt t)) = none) (m : Typed t) (hm : smart t (.lens L) = some m) :
    smart (.opt (.opt t)) (.lens L) = some m.lift.lift := by
  simp [smart, h, h', hm]

/-- Non-vacuity: `people[1][&person::name]` compiles and shows "bob"; writing "eve" replaces it; the
place `people[5][&person::name]` does not exist; names of different persons are apart. -/
example : ∃ l : Expr people.den (Ty.opt .text).den, chain people (nameOf 1).keys = some ⟨.opt .text, l⟩ ∧
    (nameOf 1).tight ∧ l.move.view two = some "bob" ∧
      find (nameOf 1) (l.move.rset two (some "eve")) = some "eve" ∧
      find (nameOf 0) (l.move.rset two (some "eve")) = some "ada" :=
  ⟨_, rfl, trivial, rfl, rfl, rfl⟩

example : find (nameOf 5) two = none ∧ Apart (nameOf 1) (nameOf 0) ∧ (nickOf 0).fails = true
    ∧ (nickOf 0).keyLast = false ∧ (.pos 0 .nil : Path people person).keyLast = true :=
  ⟨rfl, .pos _ _ (by decide), rfl, rfl, rfl⟩

/-- A map of optional persons, by way of optionals inside of optionals. -/
example : ∃ l : Typed (.map .persistent (.opt person)),
    chain (.map .persistent (.opt person)) [.at 3, .member 2] = some l ∧ l.part = .opt .text :=
  ⟨_, rfl, rfl⟩

end Verif.Smart
