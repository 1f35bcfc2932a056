import Verif.Props.Message
import Verif.Props.Compile
import Verif.Spec.Skeleton
import Verif.Base.Lit

/-!
# C122: which messages two revisions of a schema exchange
-/

namespace Proto

/-- The width of the number of characters, elements or items is greater in the second. -/
inductive MFieldTy.Widened : MFieldTy → MFieldTy → Prop
  | string {t t' : FixedTy} : t.byteSize < t'.byteSize → Widened (.varcharString t) (.varcharString t')
  | array {t t' : FixedTy} (s : Structure) : t.byteSize < t'.byteSize → Widened (.array t s) (.array t' s)
  | list {t t' : FixedTy} (m : Message) : t.byteSize < t'.byteSize → Widened (.list t m) (.list t' m)

/-- The same field, or one with a wider length. -/
inductive MField.Raised : MField → MField → Prop
  | same (f : MField) : Raised f f
  | wider {n : Name} {ty ty' : MFieldTy} {o : Bool} {sz sz' : SizeInfo} {e : Endian} :
    ty.Widened ty' → Raised (.mk n ty o sz e) (.mk n ty' o sz' e)

/-- The same fields, or ones with wider lengths. -/
inductive MField.ListRaised : List MField → List MField → Prop
  | nil : ListRaised [] []
  | cons {f f' : MField} {fs fs' : List MField} : f.Raised f' → ListRaised fs fs' →
    ListRaised (f :: fs) (f' :: fs')

/-- Some field whose length was made wider has a value. -/
def Affected (fs fs' : List MField) (vs : Env) : Prop :=
  ∃ (i : Nat) (f f' : MField) (x : Name × Value), fs[i]? = some f ∧ fs'[i]? = some f' ∧
    vs[i]? = some x ∧ f.ty.Widened f'.ty ∧ x.2 ≠ .none

theorem MFieldTy.Widened.ne {ty ty' : MFieldTy} (h : ty.Widened ty') : ty ≠ ty' := by
  rintro rfl
  cases h <;> omega

theorem MFieldTy.Widened.longer {ty ty' : MFieldTy} (h : ty.Widened ty') {c : Ctx} {here : Bool} {env : Env}
    {v : Value} (hr : ty.Repr c here env v) (e : Endian) : (ty.wire e v).length < (ty'.wire e v).length := by
  cases h with
  | string h =>
    obtain ⟨s, rfl, -⟩ := hr
    simp only [MFieldTy.wire, List.length_append, wireInt_length]; omega
  | array s h =>
    obtain ⟨l, rfl, -⟩ := hr
    simp only [MFieldTy.wire, List.length_append, wireInt_length]; omega
  | list m h =>
    obtain ⟨l, rfl, -⟩ := hr
    simp only [MFieldTy.wire, List.length_append, wireInt_length]; omega

theorem MFieldTy.Widened.some {ty ty' : MFieldTy} (h : ty.Widened ty') {c : Ctx} {here : Bool} {env : Env}
    {v : Value} (hr : ty.Repr c here env v) : v ≠ .none := by
  rintro rfl
  cases h <;> (obtain ⟨_, e, -⟩ := hr; cases e)

theorem MField.Raised.wire {f f' : MField} (h : f.Raised f') {c : Ctx} {here : Bool} {env : Env} {v : Value}
    (hr : f.Repr c here env v) :
    (f.ty.Widened f'.ty ∧ v ≠ .none ∧ (f.wire v).length < (f'.wire v).length) ∨
    (¬ (f.ty.Widened f'.ty ∧ v ≠ .none) ∧ f.wire v = f'.wire v) := by
  cases h with
  | same => exact .inr ⟨fun h => h.1.ne rfl, rfl⟩
  | wider hw =>
    simp only [MField.Repr] at hr
    simp only [MField.wire, MField.ty]
    split at hr
    · next ho =>
      simp only [ho, if_true]
      rcases hr with rfl | ⟨x, rfl, hr⟩
      · exact .inr ⟨fun h => h.2 rfl, rfl⟩
      · exact .inl ⟨hw, by simp, by simpa using hw.longer hr _⟩
    · next ho =>
      simp only [ho]
      exact .inl ⟨hw, hw.some hr, hw.longer hr _⟩

theorem MField.ListRaised.wire {fs fs' : List MField} (h : MField.ListRaised fs fs') {c : Ctx} {here : Bool}
    {env vs : Env} (hr : MField.ListRepr c here fs env vs) :
    (Affected fs fs' vs ∧ (MField.listWire fs vs).length < (MField.listWire fs' vs).length) ∨
    (¬ Affected fs fs' vs ∧ MField.listWire fs vs = MField.listWire fs' vs) := by
  induction h generalizing env vs with
  | nil =>
    refine .inr ⟨?_, rfl⟩
    rintro ⟨i, f, f', x, h, -⟩
    simp at h
  | @cons f f' fs fs' hf _ ih =>
    obtain ⟨v, rest, rfl, h1, h2⟩ := hr
    have ha : Affected (f :: fs) (f' :: fs') ((f.name, v) :: rest) ↔
        (f.ty.Widened f'.ty ∧ v ≠ .none) ∨ Affected fs fs' rest := by
      constructor
      · rintro ⟨i, g, g', x, e1, e2, e3, hx⟩
        cases i with
        | zero =>
          simp only [List.getElem?_cons_zero, Option.some.injEq] at e1 e2 e3
          subst e1 e2 e3
          exact .inl hx
        | succ i => exact .inr ⟨i, g, g', x, by simpa using e1, by simpa using e2, by simpa using e3, hx⟩
      · rintro (hx | ⟨i, g, g', x, e1, e2, e3, hx⟩)
        · exact ⟨0, f, f', (f.name, v), rfl, rfl, rfl, hx⟩
        · exact ⟨i + 1, g, g', x, by simpa using e1, by simpa using e2, by simpa using e3, hx⟩
    rw [ha]
    simp only [MField.listWire, List.length_append]
    rcases hf.wire h1 with ⟨a1, a2, a3⟩ | ⟨a1, a2⟩ <;> rcases ih h2 with ⟨b1, b2⟩ | ⟨b1, b2⟩
    · exact .inl ⟨.inl ⟨a1, a2⟩, by omega⟩
    · exact .inl ⟨.inl ⟨a1, a2⟩, by rw [b2]; omega⟩
    · exact .inl ⟨.inr b1, by rw [a2]; omega⟩
    · exact .inr ⟨fun h => h.elim a1 b1, by rw [a2, b2]⟩

/-! ## Descriptions -/

/-- A list or string with a limit that is at least the first one's. -/
inductive Model.MFieldTy.Raised : Model.MFieldTy → Model.MFieldTy → Prop
  | same (t : Model.MFieldTy) : Raised t t
  | list {n n' : Nat} (t : Name) : n ≤ n' → Raised (.list n t) (.list n' t)
  | string {n n' : Nat} : n ≤ n' → Raised (.string (some n)) (.string (some n'))

/-- The same fields, with limits that are at least the first ones'. -/
inductive Model.MField.ListRaised : List Model.MField → List Model.MField → Prop
  | nil : ListRaised [] []
  | cons {v v' : Model.MField} {vs vs' : List Model.MField} : v'.name = v.name → v'.optional = v.optional →
    v.info.Raised v'.info → ListRaised vs vs' → ListRaised (v :: vs) (v' :: vs')

/-- The limit of a list or string. -/
def Model.MFieldTy.limit? : Model.MFieldTy → Option Nat
  | .list n _ => some n
  | .string n => n
  | _ => none

/-- The limit passed 2^8, 2^16 or 2^32. -/
def Model.MField.Crosses (v v' : Model.MField) : Prop :=
  ∃ n n', v.info.limit? = some n ∧ v'.info.limit? = some n' ∧ Model.limitBytes n < Model.limitBytes n'

theorem limit_ty (n : Nat) : ∃ t, FixedTy.fromMaxValue n = .ok t ∧ t.byteSize = Model.limitBytes n ∧
    ∀ n' t', FixedTy.fromMaxValue n' = .ok t' → t'.byteSize = t.byteSize → t' = t := by
  have key : ∀ n, ∃ t, FixedTy.fromMaxValue n = .ok t ∧ t.byteSize = Model.limitBytes n ∧
      t ∈ [FixedTy.u8, .u16, .u32, .u64] := by
    intro n
    unfold FixedTy.fromMaxValue Model.limitBytes
    by_cases h1 : n < 2 ^ 8
    · rw [if_neg (by omega), if_neg (by omega), if_neg (by omega), if_pos h1]; exact ⟨.u8, rfl, rfl, by simp⟩
    · rw [if_neg h1]
      by_cases h2 : n < 2 ^ 16
      · rw [if_neg (by omega), if_neg (by omega), if_pos (by omega), if_pos h2]; exact ⟨.u16, rfl, rfl, by simp⟩
      · rw [if_neg h2]
        by_cases h3 : n < 2 ^ 32
        · rw [if_neg (by omega), if_pos (by omega), if_pos h3]; exact ⟨.u32, rfl, rfl, by simp⟩
        · rw [if_pos (by omega), if_neg h3]; exact ⟨.u64, rfl, rfl, by simp⟩
  obtain ⟨t, h1, h2, h3⟩ := key n
  refine ⟨t, h1, h2, fun n' t' h' hs => ?_⟩
  obtain ⟨t'', g1, g2, g3⟩ := key n'
  rw [g1] at h'
  cases h'
  simp only [List.mem_cons, List.not_mem_nil, or_false] at h3 g3
  rcases h3 with rfl | rfl | rfl | rfl <;> rcases g3 with rfl | rfl | rfl | rfl <;> simp [FixedTy.byteSize] at hs ⊢

theorem limitBytes_mono {n n' : Nat} (h : n ≤ n') : Model.limitBytes n ≤ Model.limitBytes n' := by
  unfold Model.limitBytes
  repeat' split
  all_goals omega

/-- Two limits in order have the same width of length, or the second has a greater one. -/
theorem limit_cases {n n' : Nat} (h : n ≤ n') : ∃ t t', FixedTy.fromMaxValue n = .ok t ∧
    FixedTy.fromMaxValue n' = .ok t' ∧ (t' = t ∧ ¬ Model.limitBytes n < Model.limitBytes n' ∨
      t.byteSize < t'.byteSize ∧ Model.limitBytes n < Model.limitBytes n') := by
  obtain ⟨t, h1, h2, h3⟩ := limit_ty n
  obtain ⟨t', g1, g2, -⟩ := limit_ty n'
  refine ⟨t, t', h1, g1, ?_⟩
  have := limitBytes_mono h
  by_cases he : t'.byteSize = t.byteSize
  · exact .inl ⟨h3 _ _ g1 he, by omega⟩
  · exact .inr ⟨by omega, by omega⟩

theorem MField.ListRaised.findIdx? {fs fs' : List MField} (h : MField.ListRaised fs fs') (on : Name) :
    fs'.findIdx? (fun f => f.name == on) = fs.findIdx? (fun f => f.name == on) := by
  induction h with
  | nil => rfl
  | cons hf _ ih =>
    have hn : ∀ {f f' : MField}, f.Raised f' → f'.name = f.name := by
      intro f f' h; cases h <;> rfl
    simp only [List.findIdx?_cons, hn hf, ih]

theorem MField.ListRaised.get {fs fs' : List MField} (h : MField.ListRaised fs fs') (i : Nat) :
    (fs[i]? = none ∧ fs'[i]? = none) ∨ ∃ f f', fs[i]? = some f ∧ fs'[i]? = some f' ∧ f.Raised f' := by
  induction h generalizing i with
  | nil => exact .inl ⟨rfl, rfl⟩
  | cons hf _ ih =>
    cases i with
    | zero => exact .inr ⟨_, _, rfl, rfl, hf⟩
    | succ i => simpa using ih i

theorem MField.ListRaised.snoc {fs fs' : List MField} (h : MField.ListRaised fs fs') {f f' : MField}
    (hf : f.Raised f') : MField.ListRaised (fs ++ [f]) (fs' ++ [f']) := by
  induction h with
  | nil => exact .cons hf .nil
  | cons hg _ ih => exact .cons hg ih

theorem MField.ListRaised.length {fs fs' : List MField} (h : MField.ListRaised fs fs') :
    fs'.length = fs.length := by
  induction h with
  | nil => rfl
  | cons _ _ ih => simp [ih]

theorem mfield_raised {q : Protocol} {emb emb1 : List Nat} {fs fs' : List MField}
    (hfs : MField.ListRaised fs fs') {v v' : Model.MField} (hn : v'.name = v.name)
    (ho : v'.optional = v.optional) (hi : v.info.Raised v'.info) {f : MField}
    (h : MField.fromModel q emb fs v = .ok (f, emb1)) :
    ∃ f', MField.fromModel q emb fs' v' = .ok (f', emb1) ∧ f.Raised f' ∧ f'.size = f.size ∧
      (f.ty.Widened f'.ty ↔ v.Crosses v') := by
  obtain ⟨n, info, o⟩ := v
  obtain ⟨n', info', o'⟩ := v'
  simp only at hn ho hi
  subst hn ho
  cases hi with
  | same t =>
    refine ⟨f, ?_, .same f, rfl, ?_⟩
    · cases info with
      | union on t =>
        rw [← h]
        unfold MField.fromModel
        simp only [hfs.findIdx? on]
        cases fs.findIdx? (fun f => f.name == on) with
        | none => rfl
        | some i =>
          simp only [Res.ofOption, Res.bind_ok]
          rcases hfs.get i with ⟨h1, h2⟩ | ⟨g, g', h1, h2, hg⟩
          · rw [h1, h2]
          · rw [h1, h2]
            cases hg with
            | same => rfl
            | wider hw =>
              cases hw <;> simp [MField.ty, Res.bind_ok]
      | string o => cases o <;> exact h
      | _ => exact h
    · refine ⟨fun h => absurd rfl h.ne, ?_⟩
      rintro ⟨a, b, h1, h2, h3⟩
      simp only at h1 h2
      rw [h1] at h2
      cases h2
      omega
  | @list a a' t hle =>
    obtain ⟨ty, ty', h1, h2, h3⟩ := limit_cases hle
    simp only [MField.fromModel, h1, h2, Res.bind_ok] at h ⊢
    obtain ⟨r, hr, h⟩ := Res.bind_eq_ok.1 h
    simp only [hr, Res.bind_ok]
    have hc : Model.MField.Crosses ⟨n', .list a t, o'⟩ ⟨n', .list a' t, o'⟩ ↔
        Model.limitBytes a < Model.limitBytes a' :=
      ⟨fun ⟨_, _, e1, e2, e3⟩ => by cases e1; cases e2; exact e3, fun h => ⟨_, _, rfl, rfl, h⟩⟩
    rw [hc]
    cases r with
    | struct s =>
      cases h
      refine ⟨_, rfl, ?_⟩
      rcases h3 with ⟨rfl, hb⟩ | ⟨hlt, hb⟩
      · exact ⟨.same _, rfl, fun h => absurd rfl h.ne, fun h => absurd h hb⟩
      · exact ⟨.wider (.array s hlt), rfl, fun _ => hb, fun _ => .array s hlt⟩
    | message m =>
      cases h
      refine ⟨_, rfl, ?_⟩
      rcases h3 with ⟨rfl, hb⟩ | ⟨hlt, hb⟩
      · exact ⟨.same _, rfl, fun h => absurd rfl h.ne, fun h => absurd h hb⟩
      · exact ⟨.wider (.list m hlt), rfl, fun _ => hb, fun _ => .list m hlt⟩
  | @string a a' hle =>
    obtain ⟨ty, ty', h1, h2, h3⟩ := limit_cases hle
    simp only [MField.fromModel, h1, h2, Res.bind_ok] at h ⊢
    have hc : Model.MField.Crosses ⟨n', .string (some a), o'⟩ ⟨n', .string (some a'), o'⟩ ↔
        Model.limitBytes a < Model.limitBytes a' :=
      ⟨fun ⟨_, _, e1, e2, e3⟩ => by cases e1; cases e2; exact e3, fun h => ⟨_, _, rfl, rfl, h⟩⟩
    rw [hc]
    cases h
    refine ⟨_, rfl, ?_⟩
    rcases h3 with ⟨rfl, hb⟩ | ⟨hlt, hb⟩
    · exact ⟨.same _, rfl, fun h => absurd rfl h.ne, fun h => absurd h hb⟩
    · exact ⟨.wider (.string hlt), rfl, fun _ => hb, fun _ => .string hlt⟩

theorem fields_raised {q : Protocol} {vs vs' : List Model.MField} (hv : Model.MField.ListRaised vs vs')
    {emb emb1 : List Nat} {fs fs' : List MField} (hfs : MField.ListRaised fs fs') {n n1 : Nat} {d d1 : Bool}
    {gs : List MField} (h : Message.fieldsFromModel q emb fs n d vs = .ok (gs, n1, d1, emb1)) :
    ∃ gs', Message.fieldsFromModel q emb fs' n d vs' = .ok (gs', n1, d1, emb1) ∧ MField.ListRaised gs gs' ∧
      (∀ i, i < fs.length → gs[i]? = fs[i]? ∧ gs'[i]? = fs'[i]?) ∧
      ∀ i f f' v v', gs[fs.length + i]? = some f → gs'[fs.length + i]? = some f' → vs[i]? = some v →
        vs'[i]? = some v' → (f.ty.Widened f'.ty ↔ v.Crosses v') := by
  induction hv generalizing emb fs fs' n d with
  | nil =>
    cases h
    exact ⟨fs', rfl, hfs, fun _ _ => ⟨rfl, rfl⟩, fun i f f' v v' _ _ h => by simp at h⟩
  | cons hn ho hi _ ih =>
    obtain ⟨⟨f, emb2⟩, h1, h⟩ := Res.bind_eq_ok.1 h
    obtain ⟨f', h1', hf, hs, hw⟩ := mfield_raised hfs hn ho hi h1
    simp only [Message.fieldsFromModel, h1', Res.bind_ok, hs]
    dsimp only at h
    split at h
    · cases h
    · next hc =>
      rw [if_neg hc]
      generalize (if f.size.isElementDynSized = true then n + 1 else n) = k at h ⊢
      by_cases hc2 : k > 1
      · rw [if_pos hc2] at h; cases h
      · rw [if_neg hc2] at h ⊢
        obtain ⟨gs', e1, e2, e3, e4⟩ := ih (hfs.snoc hf) h
        refine ⟨gs', e1, e2, fun i hi => ?_, fun i g g' u u' h1 h2 h3 h4 => ?_⟩
        · have := e3 i (by simp; omega)
          rw [this.1, this.2, List.getElem?_append_left hi, List.getElem?_append_left (by rw [hfs.length]; exact hi)]
          exact ⟨rfl, rfl⟩
        · cases i with
          | zero =>
            have := e3 fs.length (by simp)
            rw [Nat.add_zero] at h1 h2
            rw [this.1, List.getElem?_append_right (Nat.le_refl _)] at h1
            rw [this.2, List.getElem?_append_right (by rw [hfs.length]; exact Nat.le_refl _), hfs.length] at h2
            simp only [Nat.sub_self, List.getElem?_cons_zero, Option.some.injEq] at h1 h2 h3 h4
            subst h1 h2 h3 h4
            exact hw
          | succ i =>
            refine e4 i g g' u u' ?_ ?_ (by simpa using h3) (by simpa using h4)
            · rw [← h1]; congr 1; simp; omega
            · rw [← h2]; congr 1; simp; omega

namespace Props

/-- C122: the reader of one revision reads, to the end, the value that the writer of another wrote only if
both write it at the same length. -/
theorem C122_length {c c' : Ctx} {m m' : Message} {v : Value} (hv : m.Repr c v) (hv' : m'.Repr c' v)
    (h : m'.parse c' (m.write c v).bytes = .ok ⟨(m.write c v).bytes.length, v⟩) :
    (m'.wire v).length = (m.wire v).length := by
  have h1 := (C27_reencode c' m' h).2.1
  rwa [(C58_wire c hv).2, (C58_wire c' hv').2] at h1

/-- C122: without optional fields it does so exactly if both write the same bytes for the value. -/
theorem C122_same {c c' : Ctx} {m m' : Message} {v : Value} (hm : m'.tailGreedy c'.emb = true)
    (ho : m'.allFields MField.notOptional = true) (hv : m.Repr c v) (hv' : m'.Repr c' v) :
    m'.parse c' (m.write c v).bytes = .ok ⟨(m.write c v).bytes.length, v⟩ ↔ m'.wire v = m.wire v := by
  constructor
  · intro h
    have h1 := (C27_reencode c' m' h).2.2.2.2 ho
    rwa [List.take_length, (C58_wire c hv).2, (C58_wire c' hv').2] at h1
  · intro h
    rw [(C58_wire c hv).2, ← h]
    exact C22_decode_wire c' hm hv'

/-- C122: the same in front of other messages, when the reader's ends on its own. -/
theorem C122_stream {c c' : Ctx} {m m' : Message} {v : Value} (hm : m'.delimited c'.emb = true)
    (ho : m'.allFields MField.notOptional = true) (hv : m.Repr c v) (hv' : m'.Repr c' v) (t : Bytes) :
    m'.parse c' ((m.write c v).bytes ++ t) = .ok ⟨(m.write c v).bytes.length, v⟩ ↔ m'.wire v = m.wire v := by
  constructor
  · intro h
    have h1 := (C27_reencode c' m' h).2.2.2.2 ho
    rwa [List.take_left' rfl, (C58_wire c hv).2, (C58_wire c' hv').2] at h1
  · intro h
    have := C23_trailing c' hm hv' t
    rwa [(C58_wire c' hv').2, h, ← (C58_wire c hv).2] at this

/-- C122: when the only change is that some lengths are wider, a value is understood in either direction
exactly if none of the changed fields has a value: every message that has one is lost. -/
theorem C122_raised {c c' : Ctx} {m m' : Message} (hf : MField.ListRaised m.fields m'.fields)
    (hm : m.tailGreedy c.emb = true) (hm' : m'.tailGreedy c'.emb = true) {vs : Env}
    (hv : m.Repr c (.msg vs)) (hv' : m'.Repr c' (.msg vs)) :
    (m'.parse c' (m.write c (.msg vs)).bytes = .ok ⟨(m.write c (.msg vs)).bytes.length, .msg vs⟩ ↔
      ¬ Affected m.fields m'.fields vs) ∧
    (m.parse c (m'.write c' (.msg vs)).bytes = .ok ⟨(m'.write c' (.msg vs)).bytes.length, .msg vs⟩ ↔
      ¬ Affected m.fields m'.fields vs) := by
  have key : (Affected m.fields m'.fields vs ∧ (m.wire (.msg vs)).length < (m'.wire (.msg vs)).length) ∨
      (¬ Affected m.fields m'.fields vs ∧ m.wire (.msg vs) = m'.wire (.msg vs)) := by
    obtain ⟨_, _, fs, _⟩ := m
    obtain ⟨_, _, fs', _⟩ := m'
    simp only [Message.Repr] at hv
    obtain ⟨vs', e, hr⟩ := hv
    cases e
    exact hf.wire hr
  rcases key with ⟨ha, hl⟩ | ⟨ha, he⟩
  · refine ⟨⟨fun h => ?_, fun h => absurd ha h⟩, ⟨fun h => ?_, fun h => absurd ha h⟩⟩
    · have := C122_length hv hv' h; omega
    · have := C122_length hv' hv h; omega
  · refine ⟨⟨fun _ => ha, fun _ => ?_⟩, ⟨fun _ => ha, fun _ => ?_⟩⟩
    · rw [(C58_wire c hv).2, he]; exact C22_decode_wire c' hm' hv'
    · rw [(C58_wire c' hv').2, ← he]; exact C22_decode_wire c hm hv

/-- C122: a message whose limits are raised is compiled if it was before, and the lengths that become wider
are exactly those whose limit passed 2^8, 2^16 or 2^32. -/
theorem C122_compiles {q : Protocol} {emb emb1 : List Nat} {id : Nat} {d d' : Model.Message} {m : Message}
    (hn : d'.name = d.name) (hf : Model.MField.ListRaised d.fields d'.fields)
    (h : Message.fromModel q emb id d = .ok (m, emb1)) :
    ∃ m', Message.fromModel q emb id d' = .ok (m', emb1) ∧ m'.id = m.id ∧ m'.name = m.name ∧
      m'.size = m.size ∧ MField.ListRaised m.fields m'.fields ∧
      ∀ (i : Nat) (f f' : MField) (v v' : Model.MField), m.fields[i]? = some f → m'.fields[i]? = some f' →
        d.fields[i]? = some v → d'.fields[i]? = some v' → (f.ty.Widened f'.ty ↔ v.Crosses v') := by
  obtain ⟨⟨gs, n1, d1, emb2⟩, h1, h⟩ := Res.bind_eq_ok.1 h
  cases h
  obtain ⟨gs', e1, e2, -, e4⟩ := fields_raised hf .nil h1
  refine ⟨.mk id d.name gs' ⟨d1, decide (n1 > 0)⟩, ?_, rfl, rfl, rfl, e2, ?_⟩
  · simp only [Message.fromModel, e1, Res.bind_ok, hn, Res.pure_eq]
  · intro i f f' v v' a1 a2
    exact e4 i f f' v v' (by simpa [Message.fields] using a1) (by simpa [Message.fields] using a2)

namespace Ex.Understand

/-- A text of up to 255 bytes, and one that may be missing. -/
def old : Message := .mk 40 "M".toList
  [.mk "t".toList (.varcharString .u8) false ⟨true, false⟩ .little,
   .mk "o".toList (.varcharString .u8) true ⟨true, false⟩ .little] ⟨true, false⟩

/-- The second text may be longer. -/
def new : Message := .mk 40 "M".toList
  [.mk "t".toList (.varcharString .u8) false ⟨true, false⟩ .little,
   .mk "o".toList (.varcharString .u16) true ⟨true, false⟩ .little] ⟨true, false⟩

theorem raised : MField.ListRaised old.fields new.fields :=
  .cons (.same _) (.cons (.wider (.string (by decide))) .nil)

def full : Env := [("t".toList, .str [104]), ("o".toList, .some (.str [105, 106]))]

def without : Env := [("t".toList, .str [104]), ("o".toList, .none)]

theorem affected : Affected old.fields new.fields full :=
  ⟨1, _, _, _, rfl, rfl, rfl, .string (by decide), by simp⟩

theorem unaffected : ¬ Affected old.fields new.fields without := by
  rintro ⟨i, f, f', x, h1, h2, h3, hw, hn⟩
  match i with
  | 0 =>
    simp only [old, new, Message.fields, List.getElem?_cons_zero, Option.some.injEq] at h1 h2
    subst h1 h2
    exact hw.ne rfl
  | 1 => simp only [without, List.getElem?_cons_succ, List.getElem?_cons_zero, Option.some.injEq] at h3; exact hn (h3 ▸ rfl)
  | i + 2 => simp [without] at h3

theorem full_old : old.Repr Ex.ctx (.msg full) := by
  simp only [old, full, Message.Repr, MField.ListRepr]
  refine ⟨_, rfl, _, _, rfl, ?_, _, _, rfl, ?_, rfl⟩
  · simp only [MField.Repr, MFieldTy.Repr, Bool.false_eq_true, if_false]
    exact ⟨_, rfl, isUtf8_ascii _ (by decide), by decide, by decide⟩
  · simp only [MField.Repr, MFieldTy.Repr, if_true]
    exact .inr ⟨_, rfl, _, rfl, isUtf8_ascii _ (by decide), by decide, by decide⟩

theorem full_new : new.Repr Ex.ctx (.msg full) := by
  simp only [new, full, Message.Repr, MField.ListRepr]
  refine ⟨_, rfl, _, _, rfl, ?_, _, _, rfl, ?_, rfl⟩
  · simp only [MField.Repr, MFieldTy.Repr, Bool.false_eq_true, if_false]
    exact ⟨_, rfl, isUtf8_ascii _ (by decide), by decide, by decide⟩
  · simp only [MField.Repr, MFieldTy.Repr, if_true]
    exact .inr ⟨_, rfl, _, rfl, isUtf8_ascii _ (by decide), by decide, by decide⟩

theorem without_old : old.Repr Ex.ctx (.msg without) := by
  simp only [old, without, Message.Repr, MField.ListRepr]
  refine ⟨_, rfl, _, _, rfl, ?_, _, _, rfl, ?_, rfl⟩
  · simp only [MField.Repr, MFieldTy.Repr, Bool.false_eq_true, if_false]
    exact ⟨_, rfl, isUtf8_ascii _ (by decide), by decide, by decide⟩
  · simp only [MField.Repr, MFieldTy.Repr, if_true]
    exact .inl trivial

theorem without_new : new.Repr Ex.ctx (.msg without) := by
  simp only [new, without, Message.Repr, MField.ListRepr]
  refine ⟨_, rfl, _, _, rfl, ?_, _, _, rfl, ?_, rfl⟩
  · simp only [MField.Repr, MFieldTy.Repr, Bool.false_eq_true, if_false]
    exact ⟨_, rfl, isUtf8_ascii _ (by decide), by decide, by decide⟩
  · simp only [MField.Repr, MFieldTy.Repr, if_true]
    exact .inl trivial

/-- `C122_compiles` applies: 255 to 256 passes 2^8, 100 to 200 passes nothing. -/
def olds : Model.Message := ⟨"M".toList, [{ name := "t".toList, info := .string (some 100) },
  { name := "o".toList, info := .string (some 255), «optional» := some true }]⟩

def news : Model.Message := ⟨"M".toList, [{ name := "t".toList, info := .string (some 200) },
  { name := "o".toList, info := .string (some 256), «optional» := some true }]⟩

example (q : Protocol) (emb : List Nat) (he : q.endianness = .little) :
    Message.fromModel q emb 40 olds = .ok (old, emb) ∧
    ∃ m', Message.fromModel q emb 40 news = .ok (m', emb) ∧ MField.ListRaised old.fields m'.fields := by
  have h : Message.fromModel q emb 40 olds = .ok (old, emb) := by
    have h1 : FixedTy.fromMaxValue 100 = .ok .u8 := rfl
    have h2 : FixedTy.fromMaxValue 255 = .ok .u8 := rfl
    simp [Message.fromModel, olds, old, Message.fieldsFromModel, MField.fromModel, h1, h2, he, Res.bind_ok,
      Res.pure_eq, MField.size]
  obtain ⟨m', h1, -, -, -, h2, -⟩ := C122_compiles (d := olds) (d' := news) rfl
    (.cons rfl rfl (.string (by decide)) (.cons rfl rfl (.string (by decide)) .nil)) h
  exact ⟨h, m', h1, h2⟩

/-- `C122_same` and `C122_stream`: without optional fields the widths decide. -/
def oldT : Message := .mk 41 "T".toList [.mk "t".toList (.varcharString .u8) false ⟨true, false⟩ .little] ⟨true, false⟩

def newT : Message := .mk 41 "T".toList [.mk "t".toList (.varcharString .u16) false ⟨true, false⟩ .little] ⟨true, false⟩

theorem text_old : oldT.Repr Ex.ctx (.msg [("t".toList, .str [104])]) := by
  simp only [oldT, Message.Repr, MField.ListRepr]
  refine ⟨_, rfl, _, _, rfl, ?_, rfl⟩
  simp only [MField.Repr, MFieldTy.Repr, Bool.false_eq_true, if_false]
  exact ⟨_, rfl, isUtf8_ascii _ (by decide), by decide, by decide⟩

theorem text_new : newT.Repr Ex.ctx (.msg [("t".toList, .str [104])]) := by
  simp only [newT, Message.Repr, MField.ListRepr]
  refine ⟨_, rfl, _, _, rfl, ?_, rfl⟩
  simp only [MField.Repr, MFieldTy.Repr, Bool.false_eq_true, if_false]
  exact ⟨_, rfl, isUtf8_ascii _ (by decide), by decide, by decide⟩

example (t : Bytes) : newT.parse Ex.ctx ((oldT.write Ex.ctx (.msg [("t".toList, .str [104])])).bytes ++ t) ≠
    .ok ⟨(oldT.write Ex.ctx (.msg [("t".toList, .str [104])])).bytes.length, .msg [("t".toList, .str [104])]⟩ :=
  fun h => absurd ((C122_stream (by decide) (by decide) text_old text_new t).1 h) (by decide)

example : newT.parse Ex.ctx (oldT.write Ex.ctx (.msg [("t".toList, .str [104])])).bytes ≠
    .ok ⟨(oldT.write Ex.ctx (.msg [("t".toList, .str [104])])).bytes.length, .msg [("t".toList, .str [104])]⟩ :=
  fun h => absurd ((C122_same (by decide) (by decide) text_old text_new).1 h) (by decide)

/-- A message with the second text is lost in both directions, one without it is not. -/
example : new.parse Ex.ctx (old.write Ex.ctx (.msg full)).bytes ≠
      .ok ⟨(old.write Ex.ctx (.msg full)).bytes.length, .msg full⟩ ∧
    new.parse Ex.ctx (old.write Ex.ctx (.msg without)).bytes =
      .ok ⟨(old.write Ex.ctx (.msg without)).bytes.length, .msg without⟩ :=
  ⟨fun h => (C122_raised raised (by decide) (by decide) full_old full_new).1.1 h affected,
    (C122_raised raised (by decide) (by decide) without_old without_new).1.2 unaffected⟩

example : (new.wire (.msg without)).length = (old.wire (.msg without)).length :=
  C122_length without_old without_new
    ((C122_raised raised (by decide) (by decide) without_old without_new).1.2 unaffected)

/-- The loss is not reported as an error: the new reader panics, or it takes another text for the second
one if something follows. -/
example : new.parse Ex.ctx (old.write Ex.ctx (.msg [("t".toList, .str [104]), ("o".toList, .some (.str [0, 105]))])).bytes =
    .panic ∧
    new.parse Ex.ctx ((old.write Ex.ctx (.msg [("t".toList, .str [104]), ("o".toList, .some (.str [0, 105]))])).bytes ++
      [106]) = .ok ⟨7, .msg [("t".toList, .str [104]), ("o".toList, .some (.str [105, 106]))]⟩ := ⟨by rfl, by rfl⟩

end Ex.Understand
end Props
end Proto
