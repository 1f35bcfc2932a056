import Verif.Props.Host
import Verif.Props.Input
import Verif.Props.Fixtures
import Verif.Fixtures.Reading

/-!
# C121: descriptions read on hosts whose `usize` is narrower than 64 bits
-/

namespace Proto

open Input Fix

/-! ## What a narrower host reads -/

/-- The two readers differ in the width of `usize` only: the first reads a number if the second reads it
as one that fits. -/
structure Narrower {w w' : Nat} (s : Serde w) (s' : Serde w') : Prop where
  usize : ∀ q n, s.usize q = some n ↔ s'.usize q = some n ∧ n < 2 ^ w
  usizeBuffered : ∀ q n, s.usizeBuffered q = some n ↔ s'.usizeBuffered q = some n ∧ n < 2 ^ w
  endianness : s.endianness = s'.endianness
  trailing : s.trailing = s'.trailing
  order : s.order = s'.order

theorem Narrower.under {w w' : Nat} {s : Serde w} {s' : Serde w'} (u : Narrower s s') : Under s s' where
  usize q n h := ((u.usize q n).1 h).1
  usizeBuffered q n h := ((u.usizeBuffered q n).1 h).1
  endianness j e h := u.endianness ▸ h
  trailing := u.trailing
  order := u.order

/-- The value is the document or somewhere within it. -/
inductive Json.Within (j : Json) : Json → Prop
  | self : Within j j
  | item {x : Json} {xs : List Json} : x ∈ xs → Within j x → Within j (.arr xs)
  | member {e : Entry} {es : List Entry} : e ∈ es → Within j e.2 → Within j (.obj es)

theorem Json.Within.trans {a b c : Json} (h : Json.Within a b) (h' : Json.Within b c) : Json.Within a c := by
  induction h' with
  | self => exact h
  | item hm _ ih => exact .item hm ih
  | member hm _ ih => exact .member hm ih

/-- No object of the document names a member twice. -/
def Json.Plain (j : Json) : Prop := ∀ es, Json.Within (.obj es) j → (es.map Prod.fst).Nodup

theorem Json.Plain.str (n : Name) : Json.Plain (.str n) := fun _ h => by cases h

theorem Json.Plain.num (q : Rat) : Json.Plain (.num q) := fun _ h => by cases h

theorem Json.Plain.arr {xs : List Json} (h : ∀ x ∈ xs, Json.Plain x) : Json.Plain (.arr xs) := by
  intro es hw
  cases hw with
  | item hm hw => exact h _ hm es hw

theorem Json.Plain.obj {es : List Entry} (hn : (es.map Prod.fst).Nodup) (h : ∀ e ∈ es, Json.Plain e.2) :
    Json.Plain (.obj es) := by
  intro es' hw
  cases hw with
  | self => exact hn
  | member hm hw => exact h _ hm es' hw

/-- All the numbers of the description are below 2^w. -/
structure Model.Protocol.Numbers (w : Nat) (m : Model.Protocol) : Prop where
  bits : ∀ d ∈ m.structs, ∀ f ∈ d.fields, ∀ n, f.info = .signed n ∨ f.info = .unsigned n ∨
    f.info = .float n ∨ f.info = .boolean n → n < 2 ^ w
  arrayLen : ∀ d ∈ m.structs, ∀ f ∈ d.fields, ∀ n, f.arrayLen = some n → n < 2 ^ w
  list : ∀ d ∈ m.messages, ∀ f ∈ d.fields, ∀ n t, f.info = .list n t → n < 2 ^ w
  string : ∀ d ∈ m.messages, ∀ f ∈ d.fields, ∀ n, f.info = .string (some n) → n < 2 ^ w
  values : ∀ e ∈ m.enums, ∀ v ∈ e.variants, v.2 < 2 ^ w

/-- What the first reads as something with the property, the second reads the same. -/
def Back {α : Type} (P : Json → Prop) (Q : α → Prop) (f g : Json → Option α) : Prop :=
  ∀ j x, f j = some x → P j → Q x → g j = some x

namespace Back

variable {α : Type} {P : Json → Prop} {Q : α → Prop} {f g : Json → Option α}

theorem nullable (h : Back P Q f g) : Back P (fun x => ∀ a, x = some a → Q a) (nullable f) (nullable g) := by
  intro j x hx hP hQ
  cases j with
  | null => exact hx
  | _ =>
    simp only [Input.nullable, Option.map_eq_some_iff] at hx ⊢
    obtain ⟨a, ha, rfl⟩ := hx
    exact ⟨a, h _ _ ha hP (hQ a rfl), rfl⟩

theorem vec (h : Back P Q f g) :
    Back (fun j => ∀ xs, j = .arr xs → ∀ x ∈ xs, P x) (fun l => ∀ a ∈ l, Q a) (vec f) (vec g) := by
  intro j x hx hP hQ
  cases j with
  | arr xs =>
    replace hP := hP xs rfl
    simp only [Input.vec] at hx ⊢
    induction xs generalizing x with
    | nil => exact hx
    | cons a xs ih =>
      simp only [List.mapM_cons, Option.bind_eq_bind, Option.bind_eq_some_iff] at hx ⊢
      obtain ⟨y, hy, ys, hys, e⟩ := hx
      cases e
      exact ⟨y, h _ _ hy (hP a (by simp)) (hQ y (by simp)), ys,
        ih _ (fun z hz => hQ z (by simp [hz])) hys (fun z hz => hP z (by simp [hz])), rfl⟩
  | _ => cases hx

theorem field (h : Back P Q f g) {es : List Entry} {k : Name} {d : Option α} {x : α}
    (hx : field es k f d = some x) (hP : ∀ e ∈ es, P e.2) (hQ : Q x) : Input.field es k g d = some x := by
  unfold Input.field at hx ⊢
  split
  · next he => rw [he] at hx; exact hx
  · next e he =>
    rw [he] at hx
    exact h _ _ hx (hP e (List.mem_of_mem_filter (p := fun e => e.1 = k) (by rw [he]; simp))) hQ
  · next h1 h2 =>
    split at hx
    · next he => exact absurd he h1
    · next he => exact absurd he (h2 _)
    · cases hx

theorem mono (h : Back P Q f g) {P' : Json → Prop} {Q' : α → Prop} (hP : ∀ j, P' j → P j)
    (hQ : ∀ x, Q' x → Q x) : Back P' Q' f g := fun j x hx h1 h2 => h j x hx (hP j h1) (hQ x h2)

end Back

namespace Narrower

variable {w w' : Nat} {s : Serde w} {s' : Serde w'} (u : Narrower s s')

include u

theorem usize_back : Back (fun _ => True) (· < 2 ^ w) (Input.usize s') (Input.usize s) := by
  intro j x hx _ hQ
  cases j with
  | num q => exact (u.usize _ _).2 ⟨hx, hQ⟩
  | _ => cases hx

theorem usizeBuffered_back : Back (fun _ => True) (· < 2 ^ w) (Input.usizeBuffered s') (Input.usizeBuffered s) := by
  intro j x hx _ hQ
  cases j with
  | num q => exact (u.usizeBuffered _ _).2 ⟨hx, hQ⟩
  | _ => cases hx

theorem record {keys : List Name} {j : Json} {es : List Entry} (h : record s'.trailing keys j = some es) :
    Input.record s.trailing keys j = some es := u.trailing ▸ h

theorem bits_back : Back (fun _ => True) (· < 2 ^ w) (bits s') (bits s) := by
  intro j x hx _ hQ
  unfold bits at hx ⊢
  simp only [Option.bind_eq_bind, Option.bind_eq_some_iff] at hx ⊢
  obtain ⟨es, he, hx⟩ := hx
  exact ⟨es, he, u.usizeBuffered_back.field hx (fun _ _ => trivial) hQ⟩

theorem fieldTy_back : Back (fun _ => True) (fun t => ∀ n, t = .signed n ∨ t = .unsigned n ∨ t = .float n ∨
    t = .boolean n → n < 2 ^ w) (fieldTy s') (fieldTy s) := by
  intro j x hx _ hQ
  unfold fieldTy at hx ⊢
  simp only [Option.bind_eq_bind, Option.bind_eq_some_iff] at hx ⊢
  obtain ⟨⟨tag, r⟩, he, hx⟩ := hx
  refine ⟨_, he, ?_⟩
  dsimp only at hx ⊢
  have hm : ∀ (c : Nat → Model.FieldTy), (∀ n, x = c n → n < 2 ^ w) → (bits s' r).map c = some x →
      (bits s r).map c = some x := by
    intro c hc h
    simp only [Option.map_eq_some_iff] at h ⊢
    obtain ⟨a, ha, rfl⟩ := h
    exact ⟨a, u.bits_back _ _ ha trivial (hc a rfl), rfl⟩
  by_cases h1 : tag = "signed".toList
  · rw [if_pos h1] at hx ⊢; exact hm _ (fun n e => hQ n (.inl e)) hx
  rw [if_neg h1] at hx ⊢
  by_cases h2 : tag = "unsigned".toList
  · rw [if_pos h2] at hx ⊢; exact hm _ (fun n e => hQ n (.inr (.inl e))) hx
  rw [if_neg h2] at hx ⊢
  by_cases h3 : tag = "float".toList
  · rw [if_pos h3] at hx ⊢; exact hm _ (fun n e => hQ n (.inr (.inr (.inl e)))) hx
  rw [if_neg h3] at hx ⊢
  by_cases h4 : tag = "boolean".toList
  · rw [if_pos h4] at hx ⊢; exact hm _ (fun n e => hQ n (.inr (.inr (.inr e)))) hx
  rw [if_neg h4] at hx ⊢
  exact hx

theorem sField_back : Back (fun _ => True) (fun f => (∀ n, f.info = .signed n ∨ f.info = .unsigned n ∨
    f.info = .float n ∨ f.info = .boolean n → n < 2 ^ w) ∧ ∀ n, f.arrayLen = some n → n < 2 ^ w)
    (sField s') (sField s) := by
  intro j x hx _ hQ
  unfold sField at hx ⊢
  simp only [Option.bind_eq_bind, Option.bind_eq_some_iff] at hx ⊢
  obtain ⟨es, h0, a, h1, b, h2, c, h3, d, h4, h5⟩ := hx
  cases h5
  exact ⟨es, u.record h0, a, h1, b, u.fieldTy_back.field h2 (fun _ _ => trivial) hQ.1, c, h3, d,
    u.usize_back.nullable.field h4 (fun _ _ => trivial) hQ.2, rfl⟩

theorem structure_back : Back (fun _ => True) (fun d => ∀ f ∈ d.fields, (∀ n, f.info = .signed n ∨
    f.info = .unsigned n ∨ f.info = .float n ∨ f.info = .boolean n → n < 2 ^ w) ∧
    ∀ n, f.arrayLen = some n → n < 2 ^ w) (structure_ s') (structure_ s) := by
  intro j x hx _ hQ
  unfold structure_ at hx ⊢
  simp only [Option.bind_eq_bind, Option.bind_eq_some_iff] at hx ⊢
  obtain ⟨es, h0, a, h1, b, h2, h3⟩ := hx
  cases h3
  exact ⟨es, u.record h0, a, h1, b, u.sField_back.vec.field h2 (fun _ _ _ _ _ _ => trivial) hQ, rfl⟩

theorem mFieldTy_back : Back (fun _ => True) (fun t => (∀ n i, t = .list n i → n < 2 ^ w) ∧
    ∀ n, t = .string (some n) → n < 2 ^ w) (mFieldTy s') (mFieldTy s) := by
  intro j x hx _ hQ
  unfold mFieldTy at hx ⊢
  simp only [Option.bind_eq_bind, Option.bind_eq_some_iff] at hx ⊢
  obtain ⟨⟨tag, r⟩, he, hx⟩ := hx
  refine ⟨_, he, ?_⟩
  dsimp only at hx ⊢
  by_cases h1 : tag = "item".toList
  · rw [if_pos h1] at hx ⊢; exact hx
  rw [if_neg h1] at hx ⊢
  by_cases h2 : tag = "list".toList
  · rw [if_pos h2] at hx ⊢
    simp only [Option.bind_eq_some_iff] at hx ⊢
    obtain ⟨es, g0, a, g1, b, g2, g3⟩ := hx
    cases g3
    exact ⟨es, g0, a, u.usizeBuffered_back.field g1 (fun _ _ => trivial) (hQ.1 a b rfl), b, g2, rfl⟩
  rw [if_neg h2] at hx ⊢
  by_cases h3 : tag = "string".toList
  · rw [if_pos h3] at hx ⊢
    simp only [Option.bind_eq_some_iff] at hx ⊢
    obtain ⟨es, g0, a, g1, g2⟩ := hx
    cases g2
    exact ⟨es, g0, a, u.usizeBuffered_back.nullable.field g1 (fun _ _ => trivial)
      (fun n e => hQ.2 n (by rw [e])), rfl⟩
  rw [if_neg h3] at hx ⊢
  exact hx

theorem mField_back : Back (fun _ => True) (fun f => (∀ n i, f.info = .list n i → n < 2 ^ w) ∧
    ∀ n, f.info = .string (some n) → n < 2 ^ w) (mField s') (mField s) := by
  intro j x hx _ hQ
  unfold mField at hx ⊢
  simp only [Option.bind_eq_bind, Option.bind_eq_some_iff] at hx ⊢
  obtain ⟨es, h0, a, h1, b, h2, c, h3, h4⟩ := hx
  cases h4
  exact ⟨es, u.record h0, a, h1, b, u.mFieldTy_back.field h2 (fun _ _ => trivial) hQ, c, h3, rfl⟩

theorem message_back : Back (fun _ => True) (fun d => ∀ f ∈ d.fields,
    (∀ n i, f.info = .list n i → n < 2 ^ w) ∧ ∀ n, f.info = .string (some n) → n < 2 ^ w)
    (message s') (message s) := by
  intro j x hx _ hQ
  unfold message at hx ⊢
  simp only [Option.bind_eq_bind, Option.bind_eq_some_iff] at hx ⊢
  obtain ⟨es, h0, a, h1, b, h2, h3⟩ := hx
  cases h3
  exact ⟨es, u.record h0, a, h1, b, u.mField_back.vec.field h2 (fun _ _ _ _ _ _ => trivial) hQ, rfl⟩

end Narrower

theorem insertAll_nodup_eq {l : List (Name × Nat)} (h : (l.map Prod.fst).Nodup) : insertAll l = l := by
  induction l with
  | nil => rfl
  | cons e l ih =>
    obtain ⟨k, x⟩ := e
    simp only [List.map_cons, List.nodup_cons, List.mem_map, not_exists, not_and] at h
    have : ¬ (l.any (fun e => e.1 = k)) = true := by
      simp only [List.any_eq_true, decide_eq_true_eq, not_exists, not_and]
      exact fun e he => h.1 e he
    rw [insertAll, if_neg this, ih h.2]

theorem mapM_keys {w : Nat} {s : Serde w} {es : List Entry} {l : List (Name × Nat)}
    (h : es.mapM (fun e => (Input.usize s e.2).map (fun x => (e.1, x))) = some l) :
    l.map Prod.fst = es.map Prod.fst := by
  induction es generalizing l with
  | nil => cases h; rfl
  | cons e es ih =>
    simp only [List.mapM_cons, Option.bind_eq_bind, Option.bind_eq_some_iff, Option.map_eq_some_iff] at h
    obtain ⟨y, ⟨n, -, rfl⟩, ys, hys, e⟩ := h
    cases e
    simp [ih hys]

namespace Narrower

variable {w w' : Nat} {s : Serde w} {s' : Serde w'} (u : Narrower s s')

include u

theorem variants_back : Back (fun j => ∀ es, j = .obj es → (es.map Prod.fst).Nodup)
    (fun l => ∀ v ∈ l, v.2 < 2 ^ w) (variants s') (variants s) := by
  intro j x hx hP hQ
  cases j with
  | obj es =>
    have hn := hP es rfl
    simp only [variants, Option.bind_eq_bind, Option.bind_eq_some_iff] at hx ⊢
    obtain ⟨l, hl, h⟩ := hx
    refine ⟨l, ?_, u.order ▸ h⟩
    cases h
    rw [insertAll_nodup_eq (by rw [mapM_keys hl]; exact hn)] at hQ
    replace hQ : ∀ v ∈ l, v.2 < 2 ^ w := fun v hv => hQ v ((s'.order_perm l).mem_iff.2 hv)
    clear hn hP
    induction es generalizing l with
    | nil => exact hl
    | cons e es ih =>
      simp only [List.mapM_cons, Option.bind_eq_bind, Option.bind_eq_some_iff,
        Option.map_eq_some_iff] at hl ⊢
      obtain ⟨y, ⟨n, hn, hy⟩, ys, hys, he⟩ := hl
      cases he
      cases hy
      exact ⟨_, ⟨n, u.usize_back _ _ hn trivial (hQ (e.1, n) (by simp)), rfl⟩, ys,
        ih ys hys (fun v hv => hQ v (by simp [hv])), rfl⟩
  | _ => cases hx

end Narrower

/-- The values of the members of a record are within the document. -/
theorem record_within {t : Bool} {keys : List Name} {j : Json} {es : List Entry}
    (h : Input.record t keys j = some es) : ∀ e ∈ es, Json.Within e.2 j := by
  intro e he
  cases j with
  | obj es' => cases h; exact .member he .self
  | arr xs =>
    simp only [Input.record] at h
    split at h
    · cases h; exact .item (List.of_mem_zip (a := e.1) (b := e.2) he).2 .self
    · cases h
  | _ => cases h

namespace Narrower

variable {w w' : Nat} {s : Serde w} {s' : Serde w'} (u : Narrower s s')

include u

theorem enum_back : Back Json.Plain (fun e => ∀ v ∈ e.variants, v.2 < 2 ^ w) (Input.enum s') (Input.enum s) := by
  intro j x hx hP hQ
  unfold Input.enum at hx ⊢
  simp only [Option.bind_eq_bind, Option.bind_eq_some_iff] at hx ⊢
  obtain ⟨es, h0, a, h1, b, h2, h3⟩ := hx
  cases h3
  refine ⟨es, u.record h0, a, h1, b, u.variants_back.field h2 (fun e he es' h => ?_) hQ, rfl⟩
  exact hP es' (h ▸ record_within h0 e he)

/-- What the wider host reads, the narrower reads alike, if the numbers fit. -/
theorem protocol_back : Back Json.Plain (Model.Protocol.Numbers w) (protocol s') (protocol s) := by
  intro j x hx hP hQ
  unfold protocol at hx ⊢
  simp only [Option.bind_eq_bind, Option.bind_eq_some_iff] at hx ⊢
  obtain ⟨es, h0, a, h1, b, h2, c, h3, d, h4, e, h5, f, h6, g, h7, h8⟩ := hx
  cases h8
  have hw : ∀ e ∈ es, Json.Plain e.2 := fun e he es' h => hP es' (h.trans (record_within h0 e he))
  have he : Input.endianness s = Input.endianness s' := by
    funext j; cases j <;> simp only [Input.endianness, u.endianness]
  have hc : uCase s = uCase s' := by funext j; simp only [uCase, u.trailing]
  have hn : union s = union s' := by funext j; simp only [union, u.trailing, hc]
  have hi : «import» s = «import» s' := by funext j; simp only [«import», u.trailing]
  rw [he, hn, hi]
  refine ⟨es, u.record h0, a, h1, b, h2, c, h3, d, u.structure_back.vec.nullable.field h4 ?_ ?_, e,
    u.message_back.vec.nullable.field h5 ?_ ?_, f,
    (u.enum_back.vec.mono (P' := Json.Plain) ?_ (fun _ h => h)).nullable.field h6 hw ?_, g, h7, rfl⟩
  · exact fun _ _ _ _ _ _ => trivial
  · rintro l rfl d' hd f' hf
    exact ⟨hQ.bits d' (by simpa using hd) f' hf, hQ.arrayLen d' (by simpa using hd) f' hf⟩
  · exact fun _ _ _ _ _ _ => trivial
  · rintro l rfl d' hd f' hf
    exact ⟨hQ.list d' (by simpa using hd) f' hf, hQ.string d' (by simpa using hd) f' hf⟩
  · rintro j hj xs rfl x hx es' h
    exact hj es' (.item hx h)
  · rintro l rfl e' he'
    exact hQ.values e' (by simpa using he')

end Narrower

/-! ## The numbers of a description that was read -/

theorem forall₂_exists {α β : Type} {P : α → β → Prop} {xs : List α} {l : List β} (h : List.Forall₂ P xs l) :
    ∀ a ∈ l, ∃ v, P v a := by
  induction h with
  | nil => intro a ha; cases ha
  | cons h _ ih =>
    intro a ha
    rcases List.mem_cons.1 ha with rfl | ha
    · exact ⟨_, h⟩
    · exact ih a ha

open Spec.Input Props.Input in
theorem numbers_of_read {w : Nat} {s : Serde w} {j : Json} {m : Model.Protocol} (h : protocol s j = some m) :
    m.Numbers w := by
  obtain ⟨es, -, -, -, -, hs, hm, he, -⟩ := protocol_sound h
  have items : ∀ {α : Type} {k : String} {P : Json → α → Prop} {l : List α}, MayItems es k P l →
      ∀ a ∈ l, ∃ v, P v a := by
    intro α k P l hi a ha
    rcases hi with ⟨rfl, -⟩ | ⟨v, -, xs, -, hf⟩
    · cases ha
    · exact forall₂_exists hf a ha
  have inner : ∀ {α : Type} {P : Json → α → Prop} {v : Json} {l : List α}, Items P v l → ∀ a ∈ l, ∃ v, P v a :=
    fun ⟨_, _, hf⟩ a ha => forall₂_exists hf a ha
  refine ⟨?_, ?_, ?_, ?_, ?_⟩
  · intro d hd f hf n hn
    obtain ⟨v, es', -, -, v', -, hi⟩ := items hs d hd
    obtain ⟨v'', es'', -, -, ⟨v3, -, ht⟩, -⟩ := inner hi f hf
    have hb : ∃ q, s.usizeBuffered q = some n := by
      rcases hn with hn | hn | hn | hn <;> rw [hn] at ht <;> obtain ⟨_, q, _, _, hq⟩ := ht <;> exact ⟨q, hq⟩
    obtain ⟨q, hq⟩ := hb
    exact s.usizeBuffered_range q n hq
  · intro d hd f hf n hn
    obtain ⟨v, es', -, -, v', -, hi⟩ := items hs d hd
    obtain ⟨v'', es'', -, -, -, -, ha⟩ := inner hi f hf
    rw [hn] at ha
    obtain ⟨v3, -, -, q, -, hq⟩ := ha
    exact s.usize_range q n hq
  · intro d hd f hf n t hn
    obtain ⟨v, es', -, -, v', -, hi⟩ := items hm d hd
    obtain ⟨v'', es'', -, -, ⟨v3, -, ht⟩, -⟩ := inner hi f hf
    rw [hn] at ht
    obtain ⟨_, q, -, -, hq, -⟩ := ht
    exact s.usizeBuffered_range q n hq
  · intro d hd f hf n hn
    obtain ⟨v, es', -, -, v', -, hi⟩ := items hm d hd
    obtain ⟨v'', es'', -, -, ⟨v3, -, ht⟩, -⟩ := inner hi f hf
    rw [hn] at ht
    obtain ⟨_, -, v4, -, -, q, -, hq⟩ := ht
    exact s.usizeBuffered_range q n hq
  · intro e hee v hv
    obtain ⟨_, es', -, -, v', -, vs, -, -, -, hvs⟩ := items he e hee
    obtain ⟨pre, v3, post, -, ⟨q, -, hq⟩, -⟩ := (hvs v.1 v.2).1 hv
    exact s.usize_range q _ hq

/-! ## Every reader has narrower ones -/

/-- The same reader on a host of `w` bits. -/
def Input.Serde.narrow (s : Serde) (w : Nat) (hw : w ≤ usizeBits) : Serde w where
  usize q := (s.usize q).filter (· < 2 ^ w)
  usizeBuffered q := (s.usizeBuffered q).filter (· < 2 ^ w)
  endianness := s.endianness
  trailing := s.trailing
  order := s.order
  usize_exact n h hn := by
    rw [s.usize_exact n h (Nat.lt_of_lt_of_le hn (Nat.pow_le_pow_right (by decide) hw))]
    simp [Option.filter, hn]
  usizeBuffered_exact n h hn := by
    rw [s.usizeBuffered_exact n h (Nat.lt_of_lt_of_le hn (Nat.pow_le_pow_right (by decide) hw))]
    simp [Option.filter, hn]
  usize_range q n h := by simpa using (Option.filter_eq_some_iff.1 h).2
  usizeBuffered_range q n h := by simpa using (Option.filter_eq_some_iff.1 h).2
  order_perm := s.order_perm

theorem Input.Serde.narrow_narrower (s : Serde) (w : Nat) (hw : w ≤ usizeBits) : Narrower (s.narrow w hw) s where
  usize q n := by simp [narrow, Option.filter_eq_some_iff]
  usizeBuffered q n := by simp [narrow, Option.filter_eq_some_iff]
  endianness := rfl
  trailing := rfl
  order := rfl

namespace Props

variable {w w' : Nat} {s : Serde w} {s' : Serde w'}

/-- C121: what a narrower host reads from a document, a wider one reads too, and all numbers fit. -/
theorem C121_reads (u : Narrower s s') {j : Json} {m : Model.Protocol} (h : protocol s j = some m) :
    protocol s' j = some m ∧ m.Numbers w :=
  ⟨u.under.protocol_below j m h, numbers_of_read h⟩

/-- C121: conversely, when no object of the document names a member twice: the narrower host reads exactly
the documents whose numbers fit, and reads them alike. -/
theorem C121_exactly (u : Narrower s s') {j : Json} (hj : Json.Plain j) (m : Model.Protocol) :
    protocol s j = some m ↔ protocol s' j = some m ∧ m.Numbers w :=
  ⟨C121_reads u, fun h => u.protocol_back j m h.1 hj h.2⟩

/-- C121: a document that only the wider host reads contains a number that does not fit, which is an error
of the description: nothing is cut off. -/
theorem C121_refused (u : Narrower s s') {j : Json} (hj : Json.Plain j) {m : Model.Protocol}
    (h : protocol s' j = some m) : protocol s j = none ↔ ¬ m.Numbers w := by
  constructor
  · intro hn hm
    rw [(C121_exactly u hj m).2 ⟨h, hm⟩] at hn
    cases hn
  · intro hn
    cases hc : protocol s j with
    | none => rfl
    | some m' =>
      obtain ⟨h1, h2⟩ := C121_reads u hc
      rw [h] at h1
      cases h1
      exact absurd h2 hn

theorem model_under (u : Narrower s s') {fs : Files} {path : Name} {m : Model.Protocol}
    (h : Input.model s fs path = .ok m) : Input.model s' fs path = .ok m := by
  unfold Input.model at h ⊢
  split at h
  · cases h
  · split at h
    · cases h
    · next hx =>
      cases h
      obtain ⟨j, hj, hx⟩ := Option.bind_eq_some_iff.1 hx
      rw [Option.bind_eq_some_iff.2 ⟨j, hj, (C121_reads u hx).1⟩]

/-- C121: a build script whose files are read on the narrower host reads them alike on the wider one. -/
theorem C121_files (u : Narrower s s') {fs : Files} {calls : List Fix.Call} {l l' : Loader}
    (h : Fix.run s fs l calls = .ok l') : Fix.run s' fs l calls = .ok l' := by
  induction calls generalizing l with
  | nil => exact h
  | cons c cs ih =>
    cases c with
    | load path =>
      obtain ⟨l1, h1, h2⟩ := Res.bind_eq_ok.1 h
      obtain ⟨m, hm, h1⟩ := Res.bind_eq_ok.1 h1
      simp only [Fix.run, Input.load, model_under u hm, Res.bind_ok]
      cases h1
      exact ih h2
    | «import» path importPath =>
      obtain ⟨l1, h1, h2⟩ := Res.bind_eq_ok.1 h
      obtain ⟨m, hm, h1⟩ := Res.bind_eq_ok.1 h1
      simp only [Fix.run, Input.import', model_under u hm, Res.bind_ok]
      cases h1
      exact ih h2

/-- C121: what a narrower host builds from files with overflow checks, a 64-bit host builds from the same
files, in both profiles. -/
theorem C121_builds {s' : Serde} (u : Narrower s s') (hw : w ≤ 64) (p : Profile) {fs : Files}
    {calls : List Fix.Call} {l : Loader} {solver : SimpleImportSolver} {world : World}
    (hl : Fix.run s fs Loader.new calls = .ok l)
    (hk : ∀ v ∈ l.models ++ l.importedModels.map Prod.snd, ∀ u ∈ v.unions, ∀ k ∈ u.cases,
      k.case.head? ≠ some '-')
    {r : List Protocol × World} (h : l.compileAt w .checked solver world = .ok r) :
    Fix.run s' fs Loader.new calls = .ok l ∧ l.compile p solver world = .ok r :=
  ⟨C121_files u hl, C116_checked hw p l solver world hk h⟩

/-- C121: the condition on repeated members is needed.  The last of two variants of one name counts, but
the first is read as well. -/
theorem C121_repeated : ∃ (j : Json) (m : Model.Protocol), m.Numbers 32 ∧
    protocol Input.Ex.strict j = some m ∧ protocol (Input.Ex.strict.narrow 32 (by decide)) j = none := by
  refine ⟨Spec.Input.object [("name", .str "p".toList), ("enums", .arr [Spec.Input.object [
    ("name", .str "E".toList), ("variants", Spec.Input.object [("A", .num 4294967296), ("A", .num 1)])]])],
    { name := "p".toList, enums := [⟨"E".toList, [("A".toList, 1)]⟩] }, ?_, by decide +kernel, by decide +kernel⟩
  refine ⟨by simp, by simp, by simp, by simp, by simp⟩

theorem forall₂_from {α β : Type} {P : α → β → Prop} {xs : List α} {l : List β} (h : List.Forall₂ P xs l) :
    ∀ a ∈ l, ∃ v ∈ xs, P v a := by
  induction h with
  | nil => intro a ha; cases ha
  | cons h _ ih =>
    intro a ha
    rcases List.mem_cons.1 ha with rfl | ha
    · exact ⟨_, List.mem_cons_self .., h⟩
    · obtain ⟨v, hv, hp⟩ := ih a ha
      exact ⟨v, List.mem_cons_of_mem _ hv, hp⟩

/-- C121: of the descriptions written for protocols, a host reads back exactly those whose numbers fit its
words. -/
theorem C121_written (s : Serde w) (m : Model.Protocol) (h : Spec.Input.Writable m) :
    (∃ m', protocol s (Spec.Input.ofProtocol m) = some m' ∧ Spec.Input.Same m' m) ↔ m.Numbers w := by
  constructor
  · rintro ⟨m', hr, -, -, -, h4, h5, h6, -⟩
    have hn := numbers_of_read hr
    refine ⟨h4 ▸ hn.bits, h4 ▸ hn.arrayLen, h5 ▸ hn.list, h5 ▸ hn.string, ?_⟩
    intro e he v hv
    obtain ⟨e', he', -, hp⟩ := forall₂_from h6 e he
    exact hn.values e' he' v (hp.mem_iff.2 hv)
  · intro hn
    refine Input.C73_host s m ⟨?_, ?_, ?_⟩
    · intro st hs f hf
      refine ⟨fun n hb => ⟨(h.1 st hs f hf).1 n hb, hn.bits st hs f hf n ?_⟩,
        fun n ha => ⟨(h.1 st hs f hf).2 n ha, hn.arrayLen st hs f hf n ha⟩⟩
      cases hi : f.info <;> simp_all [Model.FieldTy.bitSize?]
    · intro msg hm f hf
      exact ⟨fun n t hl => ⟨(h.2.1 msg hm f hf).1 n t hl, hn.list msg hm f hf n t hl⟩,
        fun n hl => ⟨(h.2.1 msg hm f hf).2 n hl, hn.string msg hm f hf n hl⟩⟩
    · intro e he
      exact ⟨(h.2.2 e he).1, fun v hv => ⟨(h.2.2 e he).2 v hv, hn.values e he v hv⟩⟩

namespace Ex.HostReading

/-- A document whose list of 4294967296 items does not fit 32 bits. -/
def doc (n : Rat) : Json := Spec.Input.object [("name", .str "p".toList), ("messages", .arr [
  Spec.Input.object [("name", .str "M".toList), ("fields", .arr [Spec.Input.object [("name", .str "a".toList),
    ("info", Spec.Input.object [("type", .str "list".toList), ("max_len", .num n),
      ("item_type", .str "T".toList)])]])]])]

def described (n : Nat) : Model.Protocol where
  name := "p".toList
  messages := [⟨"M".toList, [{ name := "a".toList, info := .list n "T".toList }]⟩]

/-- Both read 4294967295; only the wider one reads 4294967296. -/
example : protocol Input.Ex.strict (doc 4294967295) = some (described 4294967295) ∧
    protocol (Input.Ex.strict.narrow 32 (by decide)) (doc 4294967295) = some (described 4294967295) ∧
    protocol Input.Ex.strict (doc 4294967296) = some (described 4294967296) ∧
    protocol (Input.Ex.strict.narrow 32 (by decide)) (doc 4294967296) = none := by decide +kernel

theorem plain (n : Rat) : Json.Plain (doc n) := by
  have h1 : Json.Plain (Spec.Input.object [("type", .str "list".toList), ("max_len", .num n),
      ("item_type", .str "T".toList)]) := .obj (by simp) (by simp; exact ⟨.str _, .num _, .str _⟩)
  have h2 : Json.Plain (Spec.Input.object [("name", .str "a".toList), ("info", Spec.Input.object [
      ("type", .str "list".toList), ("max_len", .num n), ("item_type", .str "T".toList)])]) :=
    .obj (by simp) (by simp; exact ⟨.str _, by simpa using h1⟩)
  have h3 : Json.Plain (Spec.Input.object [("name", .str "M".toList), ("fields", .arr [Spec.Input.object [
      ("name", .str "a".toList), ("info", Spec.Input.object [("type", .str "list".toList), ("max_len", .num n),
      ("item_type", .str "T".toList)])]])]) :=
    .obj (by simp) (by simp; exact ⟨.str _, .arr (by simpa using h2)⟩)
  exact .obj (by simp) (by simp; exact ⟨.str _, .arr (by simpa using h3)⟩)

theorem described_writable {n : Nat} (h : n ≤ 2 ^ 53) : Spec.Input.Writable (described n) :=
  ⟨by simp [described], by simpa [described] using h, by simp [described]⟩

/-- Written for a list of 4294967296 items, a description is not read back with 32 bits. -/
example (s : Serde 32) : ¬ ∃ m', protocol s (Spec.Input.ofProtocol (described 4294967296)) = some m' ∧
    Spec.Input.Same m' (described 4294967296) := by
  rw [C121_written s _ (described_writable (by decide))]
  intro h
  exact absurd (h.list _ (List.mem_cons_self ..) _ (List.mem_cons_self ..) _ _ rfl) (by decide)

/-- `C121_refused` applies. -/
example : ¬ (described 4294967296).Numbers 32 :=
  (C121_refused (Serde.narrow_narrower Input.Ex.strict 32 (by decide)) (plain 4294967296) (by decide +kernel)).1
    (by decide +kernel)

/-- `C121_exactly` applies. -/
example (h : (described 4294967295).Numbers 32) :
    protocol (Input.Ex.strict.narrow 32 (by decide)) (doc 4294967295) = some (described 4294967295) :=
  (C121_exactly (Serde.narrow_narrower _ 32 (by decide)) (plain _) _).2 ⟨by decide +kernel, h⟩

end Ex.HostReading
end Props
end Proto
