import Verif.Lang.Accessor
import Verif.Gen.StructLemmas

/-!
# The generated accessors, printed and run
-/

set_option maxRecDepth 4000

namespace Proto.Rs.Acc

open Text

/-! ## Printing -/

theorem typeName_rawTy (l : Loc) : typeName (rawTy l) = rawName l.bitSize := by
  unfold rawTy rawName
  split
  · rfl
  split
  · rfl
  split <;> rfl

theorem kind_rawTy (l : Loc) : kind (rawTy l) = .unsigned (rawBytes l.bitSize) := by
  unfold rawTy rawBytes
  split
  · rfl
  split
  · rfl
  split <;> rfl

theorem utf8_value : (id "value").utf8 = b!"value" := by krfl
theorem utf8_rawValue : (id "raw_value").utf8 = b!"raw_value" := by krfl
theorem utf8_set : (id "set_").utf8 = b!"set_" := by krfl
theorem display_one : display 1 = b!"1" := by krfl

/-- The text of a raw getter is its program. -/
theorem rawGet_print (lib : Lib) (f : FixedField) : rawGetter f = (rawGet f).print lib := by
  unfold rawGetter rawGet Fn.print
  by_cases h8 : f.loc.bitSize % 8 = 0 <;> rcases Decidable.em (Exact f.loc) with hx | hx <;>
  first | rw [if_pos hx] | rw [if_neg hx]
  all_goals first
    | have hd : decide (Exact f.loc) = true := decide_eq_true hx
    | have hd : decide (Exact f.loc) = false := decide_eq_false hx
  all_goals simp only [h8, hd, codec, Codec.print, Tail.print, Expr.print, Ty.print, all_nil, typeName_rawTy, if_true, if_false,
    Bool.false_eq_true,
    utf8_append, utf8_getRaw, first, last, List.append_assoc, List.cons_append, List.nil_append, List.append_nil]

/-- The text of a raw setter is its program. -/
theorem rawSet_print (lib : Lib) (f : FixedField) : rawSetter f = (rawSet f).print lib := by
  unfold rawSetter rawSet Fn.print
  by_cases h8 : f.loc.bitSize % 8 = 0 <;> rcases Decidable.em (Exact f.loc) with hx | hx <;>
  first | rw [if_pos hx] | rw [if_neg hx]
  all_goals first
    | have hd : decide (Exact f.loc) = true := decide_eq_true hx
    | have hd : decide (Exact f.loc) = false := decide_eq_false hx
  all_goals simp only [h8, hd, codec, Codec.print, Tail.print, Stmt.print, Expr.print, Ty.print, all_nil, all_cons,
    typeName_rawTy, if_true, if_false, Bool.false_eq_true, utf8_value,
    utf8_append, utf8_setRaw, first, last, List.append_assoc, List.cons_append, List.nil_append, List.append_nil]

/-- The text of a getter is its program. -/
theorem viewGet_print (lib : Lib) (paths : List (Name × Name)) (f : FixedField) :
    viewGetter lib paths f = (viewGet paths f).print lib := by
  unfold viewGetter viewGet
  cases hv : f.view
  case transmute =>
    by_cases hb : f.ty = .bool <;>
    simp only [hb, Fn.print, Tail.print, Stmt.print, Expr.print, Ty.print, all_nil, all_cons, typeName_rawTy,
      if_true, if_false, Bool.false_eq_true, utf8_rawValue, utf8_append, utf8_get, display_zero,
      List.append_assoc, List.cons_append, List.nil_append, List.append_nil]
  all_goals
    simp only [Fn.print, Tail.print, Stmt.print, Expr.print, Expr.bracketed, Ty.print, all_nil, all_cons, typeName_rawTy,
      if_true, if_false, Bool.false_eq_true, utf8_rawValue, utf8_append, utf8_get, display_one,
      List.append_assoc, List.cons_append, List.nil_append, List.append_nil]

/-- The text of a setter is its program. -/
theorem viewSet_print (lib : Lib) (paths : List (Name × Name)) (f : FixedField) :
    viewSetter lib paths f = (viewSet paths f).print lib := by
  unfold viewSetter viewSet
  cases hv : f.view <;> by_cases hb : f.ty = .bool <;>
    simp only [hb, Fn.print, Tail.print, Stmt.print, Expr.print, Expr.bracketed, Ty.print, all_nil, all_cons, typeName_rawTy,
      if_true, if_false, Bool.false_eq_true, utf8_rawValue, utf8_value, utf8_append, utf8_set, display_zero, display_one,
      List.append_assoc, List.cons_append, List.nil_append, List.append_nil]

/-- The text of the accessors of an array field or a nested structure is their program. -/
theorem partGet_print (lib : Lib) (paths : List (Name × Name)) {f : SField} {k m : Fn}
    (hk : partGet paths false f = some k) (hm : partGet paths true f = some m) :
    fieldGetter lib paths f = k.print lib ∧ fieldSetter lib paths f = m.print lib := by
  cases f with
  | fixed => simp [partGet] at hk
  | array f =>
    simp only [partGet, Option.some.injEq] at hk hm
    subst hk hm
    constructor <;>
    simp only [fieldGetter, fieldSetter, Fn.print, Tail.print, Expr.print, Ty.print, all_nil, if_true, if_false,
      Bool.false_eq_true, utf8_append, utf8_get, utf8_mut, first, last, List.append_assoc, List.cons_append,
      List.nil_append, List.append_nil]
  | struct n r l =>
    simp only [partGet, Option.some.injEq] at hk hm
    subst hk hm
    constructor <;>
    simp only [fieldGetter, fieldSetter, Fn.print, Tail.print, Expr.print, Ty.print, all_nil, if_true, if_false,
      Bool.false_eq_true, utf8_append, utf8_get, utf8_mut, first, last, List.append_assoc, List.cons_append,
      List.nil_append, List.append_nil]

/-! ## Running -/

/-- A field whose location has a raw integer type. -/
abbrev Scalar (f : FixedField) : Prop := 1 ≤ f.loc.bitSize ∧ f.loc.bitSize ≤ 64

theorem rawSize_eq {f : FixedField} (h : Scalar f) : f.loc.rawSize = rawBytes f.loc.bitSize := by
  rw [Loc.rawSize_eq h.1 h.2]; unfold rawBytes
  repeat' split
  all_goals omega

theorem kind_raw {f : FixedField} (h : Scalar f) : kind (rawTy f.loc) = .unsigned f.loc.rawSize := by
  rw [kind_rawTy, rawSize_eq h]

theorem rawSize_pos {f : FixedField} (h : Scalar f) : 1 ≤ f.loc.rawSize := by
  rw [rawSize_eq h]; unfold rawBytes; repeat' split
  all_goals omega

theorem exact_iff {f : FixedField} (h : Scalar f) : decide (Exact f.loc) = !f.unaligned := by
  unfold Exact FixedField.unaligned
  rw [rawSize_eq h]
  by_cases e : f.loc.byteSize = rawBytes f.loc.bitSize
  · simp [e]
  · simp [e, Ne.symm e]

theorem lift_bind (x : R α) (f : α → R β) : lift (x >>= f) = (lift x >>= fun a => lift (f a)) := by
  cases x <;> rfl

theorem codec_read {f : FixedField} (h : Scalar f) (p : Profile) (b : Bytes) :
    (do let x ← slice b (codec f).start (codec f).stop; (codec f).readFn p f.loc.rawSize x) = f.getRaw p b := by
  unfold FixedField.getRaw
  refine congrArg _ (funext fun s => ?_)
  unfold Codec.readFn codec
  rw [exact_iff h]
  by_cases h8 : f.loc.bitSize % 8 = 0 <;> cases hu : f.unaligned <;> simp [h8]

theorem codec_write {f : FixedField} (h : Scalar f) (p : Profile) (b : Bytes) (v : Nat) :
    (do
      let x ← slice b (codec f).start (codec f).stop
      let y ← (codec f).writeFn p f.loc.rawSize x v
      pure (splice b (codec f).start y)) = f.setRaw p b v := by
  unfold FixedField.setRaw
  refine congrArg _ (funext fun s => ?_)
  unfold Codec.writeFn codec
  rw [exact_iff h]
  by_cases h8 : f.loc.bitSize % 8 = 0 <;> cases hu : f.unaligned <;> simp [h8]

/-- Running `get_raw_x`. -/
theorem rawGet_run {f : FixedField} (h : Scalar f) (g : Globals) (b : Bytes) :
    (rawGet f).call g b none = (do
      let n ← lift (f.getRaw g.p b)
      .ok (b, some (.uint f.loc.rawSize n))) := by
  rw [← codec_read h, lift_bind]
  have hk : kind (codec f).raw = .unsigned f.loc.rawSize := kind_raw h
  simp only [Fn.call, rawGet, bindParam, runAll, Tail.run, Expr.eval, hk, Res.bind_ok]
  cases lift (slice b (codec f).start (codec f).stop) with
  | ok s =>
    simp only [Res.bind_ok]
    cases lift ((codec f).readFn g.p f.loc.rawSize s) with
    | ok n => simp [checked, Val.hasTy, kind_raw h]
    | err => rfl
    | panic => rfl
  | err => rfl
  | panic => rfl

/-- Running `set_raw_x`. -/
theorem rawSet_run {f : FixedField} (h : Scalar f) (g : Globals) (b : Bytes) (v : Nat) :
    (rawSet f).call g b (some (.uint f.loc.rawSize v)) = (do
      let b ← lift (f.setRaw g.p b v)
      .ok (b, none)) := by
  rw [← codec_write h, lift_bind]
  have hk : kind (codec f).raw = .unsigned f.loc.rawSize := kind_raw h
  simp only [Fn.call, rawSet, bindParam, Val.hasTy, kind_raw h, decide_true, if_true, runAll, Stmt.run, hk,
    argument, Expr.eval, Res.bind_ok]
  simp only [List.lookup, beq_self_eq_true, Res.ofOption_some, Res.bind_ok, if_true]
  cases lift (slice b (codec f).start (codec f).stop) with
  | ok s =>
    simp only [Res.bind_ok, lift_bind]
    cases lift ((codec f).writeFn g.p f.loc.rawSize s v) with
    | ok n => rfl
    | err => rfl
    | panic => rfl
  | err => rfl
  | panic => rfl

/-- The types, sizes and literals of a field's `get_x` and `set_x` agree. -/
def Typed (f : FixedField) : Prop :=
  match f.view with
  | .none => kind f.ty = .unsigned f.loc.rawSize
  | .transmute => f.ty = .bool ∨ kind f.ty = .signed f.loc.rawSize ∨ kind f.ty = .float f.loc.rawSize
  | .signedCast m => kind f.ty = .signed f.loc.rawSize ∧ m < 2 ^ (8 * f.loc.rawSize)
  | .enum e => enumBytes e = f.loc.rawSize ∧ e.largest < 2 ^ (8 * f.loc.rawSize)
  | .float _ _ _ _ => ∃ w, kind f.ty = .float w

/-- Calls inside the accessors of the field find the accessors of the field. -/
structure Linked (g : Globals) (paths : List (Name × Name)) (f : FixedField) : Prop where
  get : method g.structure_ ("get_raw_".toList ++ f.name) = some (.raw f)
  set : method g.structure_ ("set_raw_".toList ++ f.name) = some (.raw f)
  enum : ∀ e, f.view = .enum e → g.enums (pathOf paths e.name) = some e

/-- Floats are computed exactly, if the field's view computes any. -/
def ExactIn (g : Globals) (f : FixedField) : Prop :=
  ∀ a b ai bi, f.view = .float a b ai bi → g.num = .exact

/-- A value of a view as a value of the language. -/
def val (paths : List (Name × Name)) (f : FixedField) : ViewVal → Val
  | .uint n => .uint f.loc.rawSize n
  | .int i => .int f.loc.rawSize i
  | .float q => .real f.ty.byteSize (.fin q)
  | .floatBits n => .bits f.loc.rawSize n
  | .bool b => .bool b
  | .enum none => .none
  | .enum (some d) => .some (.enum (match f.view with | .enum e => pathOf paths e.name | _ => []) d)

/-- The argument of a setter; an enum's is not optional. -/
def argOf (paths : List (Name × Name)) (f : FixedField) : ViewVal → Val
  | .enum (some d) => .enum (match f.view with | .enum e => pathOf paths e.name | _ => []) d
  | v => val paths f v

theorem lift_addU (p : Profile) (n a b : Nat) : lift (addU p n a b) = addU p n a b := by
  unfold addU
  split
  · rfl
  · cases p <;> rfl

theorem addU_lt {p : Profile} {n a b x : Nat} (h : (addU p n a b : Res ε Nat) = .ok x) : x < 2 ^ n := by
  unfold addU at h
  split at h
  · cases h; assumption
  · cases p
    · cases h
    · cases h; exact Nat.mod_lt _ (Nat.two_pow_pos _)

theorem float_bytes {t : FixedTy} {w : Nat} (h : kind t = .float w) : w = t.byteSize := by
  cases t <;> simp_all [kind, FixedTy.byteSize]

/-- Running `get_x`, when the view is not an enum. -/
theorem viewGet_run {f : FixedField} (h : Scalar f) {g : Globals} {paths : List (Name × Name)}
    (ht : Typed f) (hl : Linked g paths f) (hx : ExactIn g f) (he : ∀ e, f.view ≠ .enum e) (b : Bytes) :
    (viewGet paths f).call g b none = (do
      let v ← lift (f.getView g.p b)
      .ok (b, some (val paths f v))) := by
  have hk := kind_raw h
  have hw := rawSize_pos h
  unfold FixedField.getView
  unfold Typed at ht
  cases hv : f.view with
  | none =>
    rw [hv] at ht
    simp only [viewGet, hv, Fn.call, bindParam, runAll, Tail.run, Expr.eval, hl.get, Res.bind_ok, lift_bind]
    cases lift (f.getRaw g.p b) with
    | ok n => simp [checked, Val.hasTy, ht, val, lift, pure]
    | err => rfl
    | panic => rfl
  | transmute =>
    rw [hv] at ht
    simp only at ht
    by_cases hb : f.ty = .bool
    · simp only [viewGet, hv, hb, if_true, Fn.call, bindParam, runAll, Tail.run, Expr.eval, hl.get,
        FixedField.viewBoolGet, Res.bind_ok, lift_bind]
      cases lift (f.getRaw g.p b) with
      | ok n =>
        have : 0 < 2 ^ (8 * f.loc.rawSize) := Nat.two_pow_pos _
        by_cases hn : n = 0 <;>
        simp [checked, Val.hasTy, kind, val, lift, pure, operand, Val.cond, hn, this]
      | err => rfl
      | panic => rfl
    · simp only [viewGet, hv, hb, if_false, Fn.call, bindParam, runAll, Tail.run, Expr.eval, hl.get,
        Res.bind_ok]
      rcases ht with ht | ht | ht
      · exact absurd ht hb
      · have hf : ¬ (f.ty = .f32 ∨ f.ty = .f64) := by
          rintro (e | e) <;> simp [e, kind] at ht
        rw [if_neg hf]
        simp only [FixedField.viewTransmuteGet, lift_bind]
        cases lift (f.getRaw g.p b) with
        | ok n => simp [checked, Acc.transmute, Val.hasTy, hk, ht, val, lift, pure, FixedField.rawBits]
        | err => rfl
        | panic => rfl
      · have hf : f.ty = .f32 ∨ f.ty = .f64 := by
          cases e : f.ty <;> simp_all [kind]
        rw [if_pos hf]
        simp only [lift_bind]
        cases lift (f.getRaw g.p b) with
        | ok n => simp [checked, Acc.transmute, Val.hasTy, hk, ht, val, lift, pure]
        | err => rfl
        | panic => rfl
  | signedCast m =>
    rw [hv] at ht
    simp only at ht
    obtain ⟨hs, hm⟩ := ht
    simp only [viewGet, hv, Fn.call, bindParam, runAll, Stmt.run, Tail.run, Expr.eval, hl.get,
      FixedField.viewSignedGet, Res.bind_ok, lift_bind]
    cases lift (f.getRaw g.p b) with
    | ok n =>
      have h0 : 0 < 2 ^ (8 * f.loc.rawSize) := Nat.two_pow_pos _
      have h1 : 1 < 2 ^ (8 * f.loc.rawSize) := Nat.one_lt_two_pow (by omega)
      simp only [List.lookup, beq_self_eq_true, Res.ofOption_some, Res.bind_ok, operand, if_pos hm, if_pos h0,
        if_pos h1, Val.cond, decide_eq_true_eq]
      by_cases hn : n > m
      · simp only [if_pos hn, FixedField.rawBits]
        simp only [lift_bind, lift_addU]
        cases ha : (addU g.p (8 * f.loc.rawSize) (notU (8 * f.loc.rawSize) n &&& m) 1 : Res Halt Nat) with
        | ok x =>
          have hx := addU_lt ha
          simp only [Res.bind_ok, Acc.cast, hs, Nat.mod_eq_of_lt hx]
          cases lift (negS g.p (8 * f.loc.rawSize) (toSigned (8 * f.loc.rawSize) x)) with
          | ok i => simp [checked, Val.hasTy, hs, val, lift, pure]
          | err => rfl
          | panic => rfl
        | err => rfl
        | panic => rfl
      · have hlt : n &&& m < 2 ^ (8 * f.loc.rawSize) := Nat.lt_of_le_of_lt Nat.and_le_right hm
        simp [if_neg hn, FixedField.rawBits, Acc.cast, hs, checked, Val.hasTy, val, lift, pure,
          Nat.mod_eq_of_lt hlt]
    | err => rfl
    | panic => rfl
  | enum e => exact absurd hv (he e)
  | float x y xi yi =>
    rw [hv] at ht
    obtain ⟨w, hf⟩ := ht
    simp only [viewGet, hv, Fn.call, bindParam, runAll, Stmt.run, Tail.run, Expr.eval, hl.get,
      FixedField.viewFloatGet, Res.bind_ok, lift_bind]
    cases lift (f.getRaw g.p b) with
    | ok n =>
      simp [List.lookup, Acc.cast, hf, checked, Val.hasTy, val, lift, pure, ← float_bytes hf, hx _ _ _ _ hv,
        Arith.ofNat, Arith.affine]
    | err => rfl
    | panic => rfl

/-- Running `get_x`, when the view is an enum: above the largest value the result is `None`; a value
that is not one of the enum's is undefined behaviour. -/
theorem enumGet_run {f : FixedField} (h : Scalar f) {g : Globals} {paths : List (Name × Name)}
    (ht : Typed f) (hl : Linked g paths f) {e : Enum} (he : f.view = .enum e) (b : Bytes) :
    (viewGet paths f).call g b none = (do
      let n ← lift (f.getRaw g.p b)
      if n > e.largest then .ok (b, some .none)
      else if n ∈ e.variants.map Prod.snd then .ok (b, some (.some (.enum (pathOf paths e.name) n)))
      else .err .undefined) := by
  have hk := kind_raw h
  unfold Typed at ht
  rw [he] at ht
  simp only at ht
  obtain ⟨hs, hm⟩ := ht
  simp only [viewGet, he, Fn.call, bindParam, runAll, Stmt.run, Tail.run, Expr.eval, hl.get, Res.bind_ok]
  cases lift (f.getRaw g.p b) with
  | ok n =>
    simp only [List.lookup, beq_self_eq_true, Res.ofOption_some, Res.bind_ok, operand, if_pos hm, Val.cond,
      decide_eq_true_eq]
    by_cases hn : n > e.largest
    · simp [if_pos hn, checked, Val.hasTy]
    · simp only [if_neg hn, Acc.transmute, Val.hasTy, hk, hl.enum e he, hs, decide_true, Bool.true_eq_false, if_false,
        ne_eq, not_true]
      by_cases hd : n ∈ e.variants.map Prod.snd
      · simp [if_pos hd, checked, Val.hasTy]
      · simp only [if_neg hd]; rfl
  | err => rfl
  | panic => rfl

/-- Running `set_x`. -/
theorem viewSet_run {f : FixedField} (h : Scalar f) {g : Globals} {paths : List (Name × Name)}
    (ht : Typed f) (hl : Linked g paths f) (hx : ExactIn g f) {v : ViewVal} {b : Bytes} {r : R Bytes}
    (hr : f.setView g.p b v = some r) :
    (viewSet paths f).call g b (some (argOf paths f v)) = (do
      let b ← lift r
      .ok (b, none)) := by
  have hk := kind_raw h
  have hw := rawSize_pos h
  unfold FixedField.setView at hr
  unfold Typed at ht
  cases hv : f.view with
  | none =>
    rw [hv] at ht hr
    simp only at ht
    cases v <;> simp only [Option.some.injEq, reduceCtorEq] at hr
    subst hr
    simp only [viewSet, hv, argOf, val, Fn.call, bindParam, Val.hasTy, ht, decide_true, if_true, runAll, Stmt.run, store,
      hl.set, argument, Expr.eval, List.lookup, beq_self_eq_true, Res.ofOption_some, Res.bind_ok]
    cases lift (f.setRaw g.p b _) <;> rfl
  | transmute =>
    rw [hv] at ht hr
    simp only at ht
    by_cases hb : f.ty = .bool
    · rw [hb] at ht
      cases v <;> simp [hb] at hr
      subst hr
      rename_i t
      have h0 : 0 < 2 ^ (8 * f.loc.rawSize) := Nat.two_pow_pos _
      have h1 : 1 < 2 ^ (8 * f.loc.rawSize) := Nat.one_lt_two_pow (by omega)
      cases t <;>
      simp only [viewSet, hv, argOf, val, Fn.call, bindParam, Val.hasTy, hb, kind, decide_true, if_true, runAll, Stmt.run,
        store, hl.set, argument, Expr.eval, List.lookup, beq_self_eq_true, Res.ofOption_some, Res.bind_ok, Val.cond,
        FixedField.viewBoolSet, Bool.false_eq_true, if_false, if_pos h0, if_pos h1] <;>
      cases lift (f.setRaw g.p b _) <;> rfl
    · rcases ht with ht | ht | ht
      · exact absurd ht hb
      · have hf : ¬ (f.ty = .f32 ∨ f.ty = .f64) := by
          rintro (e | e) <;> simp [e, kind] at ht
        cases v <;> simp [hb, hf] at hr
        obtain ⟨_, rfl⟩ := hr
        simp only [viewSet, hv, hb, if_false, argOf, val, Fn.call, bindParam, Val.hasTy, ht, decide_true, if_true, runAll,
          Stmt.run, store, hl.set, argument, Expr.eval, List.lookup, beq_self_eq_true, Res.ofOption_some, Res.bind_ok,
          Acc.transmute, hk, Bool.true_eq_false, FixedField.viewSignedSet, FixedField.rawBits]
        cases lift (f.setRaw g.p b _) <;> rfl
      · have hf : f.ty = .f32 ∨ f.ty = .f64 := by
          cases e : f.ty <;> simp_all [kind]
        cases v <;> simp [hb, hf] at hr
        · subst hr
          simp only [viewSet, hv, hb, if_false, argOf, val, Fn.call, bindParam, Val.hasTy, ht, decide_true, if_true, runAll,
            Stmt.run, store, hl.set, argument, Expr.eval, List.lookup, beq_self_eq_true, Res.ofOption_some, Res.bind_ok,
            Acc.transmute, hk, Bool.true_eq_false]
          cases lift (f.setRaw g.p b _) <;> rfl
  | signedCast m =>
    rw [hv] at ht hr
    simp only at ht
    obtain ⟨hs, hm⟩ := ht
    have hb : f.ty ≠ .bool := by intro e; simp [e, kind] at hs
    cases v <;> simp only [Option.some.injEq, reduceCtorEq] at hr
    subst hr
    simp only [viewSet, hv, hb, if_false, argOf, val, Fn.call, bindParam, Val.hasTy, hs, decide_true, if_true, runAll,
      Stmt.run, store, hl.set, argument, Expr.eval, List.lookup, beq_self_eq_true, Res.ofOption_some, Res.bind_ok,
      Acc.transmute, hk, Bool.true_eq_false, FixedField.viewSignedSet, FixedField.rawBits]
    cases lift (f.setRaw g.p b _) <;> rfl
  | enum e =>
    rw [hv] at ht hr
    rcases v with _ | _ | _ | _ | _ | (_ | d) <;> simp only [Option.some.injEq, reduceCtorEq] at hr
    subst hr
    simp only [viewSet, hv, argOf, Fn.call, bindParam, Val.hasTy, decide_true, if_true, runAll,
      Stmt.run, store, hl.set, argument, Expr.eval, List.lookup, beq_self_eq_true, Res.ofOption_some, Res.bind_ok,
      Acc.cast, hk, FixedField.viewEnumSet, FixedField.rawBits]
    cases lift (f.setRaw g.p b _) <;> rfl
  | float x y xi yi =>
    rw [hv] at ht hr
    obtain ⟨w, hf⟩ := ht
    cases v <;> simp only [Option.some.injEq, reduceCtorEq] at hr
    subst hr
    simp only [viewSet, hv, argOf, val, ← float_bytes hf, Fn.call, bindParam, Val.hasTy, hf, decide_true, if_true, runAll,
      Stmt.run, store, hl.set, argument, Expr.eval, List.lookup, beq_self_eq_true, Res.ofOption_some, Res.bind_ok,
      Acc.cast, hk, FixedField.viewFloatSet, FixedField.rawBits, hx _ _ _ _ hv, Arith.affine, Ieee.Fl.toUInt]
    cases lift (f.setRaw g.p b _) <;> rfl

/-- The format of the type of a float field. -/
theorem format_of {t : FixedTy} {fmt : Ieee.Fmt} (h : Ieee.fmtOf t = some fmt) :
    kind t = .float t.byteSize ∧ format t.byteSize = fmt := by
  cases t <;> cases h <;> exact ⟨rfl, rfl⟩

/-- Running `get_x` of a float view, as Rust computes. -/
theorem ieeeGet_run {f : FixedField} {g : Globals} {paths : List (Name × Name)} (hl : Linked g paths f)
    {decimal : Rat → Rat} (hx : g.num = .ieee decimal) {x y xi yi : Rat} (hv : f.view = .float x y xi yi)
    {fmt : Ieee.Fmt} (hf : Ieee.fmtOf f.ty = some fmt) (b : Bytes) :
    (viewGet paths f).call g b none = (do
      let v ← lift (Ieee.getView g.p f (decimal x) (decimal y) fmt b)
      .ok (b, some (.real f.ty.byteSize v))) := by
  obtain ⟨h1, h2⟩ := format_of hf
  simp only [viewGet, hv, Fn.call, bindParam, runAll, Stmt.run, Tail.run, Expr.eval, hl.get,
    Ieee.getView, Res.bind_ok, lift_bind]
  cases lift (f.getRaw g.p b) with
  | ok n =>
    simp [List.lookup, Acc.cast, h1, checked, Val.hasTy, lift, pure, hx, Arith.ofNat, Arith.affine, h2, Ieee.viewGet]
  | err => rfl
  | panic => rfl

/-- Running `set_x` of a float view, as Rust computes. -/
theorem ieeeSet_run {f : FixedField} (h : Scalar f) {g : Globals} {paths : List (Name × Name)}
    (hl : Linked g paths f) {decimal : Rat → Rat} (hx : g.num = .ieee decimal) {x y xi yi : Rat}
    (hv : f.view = .float x y xi yi) {fmt : Ieee.Fmt} (hf : Ieee.fmtOf f.ty = some fmt) (b : Bytes)
    (v : Ieee.Fl) :
    (viewSet paths f).call g b (some (.real f.ty.byteSize v)) = (do
      let b ← lift (Ieee.setView g.p f (decimal xi) (decimal yi) fmt b v)
      .ok (b, none)) := by
  obtain ⟨h1, h2⟩ := format_of hf
  have hk := kind_raw h
  simp only [viewSet, hv, Fn.call, bindParam, Val.hasTy, h1, decide_true, if_true, runAll,
    Stmt.run, store, hl.set, argument, Expr.eval, List.lookup, beq_self_eq_true, Res.ofOption_some, Res.bind_ok,
    Acc.cast, hk, FixedField.rawBits, hx, Arith.affine, h2, Ieee.setView, Ieee.viewSet]
  cases lift (f.setRaw g.p b _) <;> rfl

/-- Running the accessor of an array field or of a nested structure: the field's bytes. -/
theorem partGet_run {s : Bool} {paths : List (Name × Name)} {f : SField} {k : Fn} (hk : partGet paths s f = some k)
    (g : Globals) (b : Bytes) :
    k.call g b none = (do
      let x ← lift (slice b f.loc.byteOffset (f.loc.byteOffset + f.loc.byteSize))
      .ok (b, some (.part (match f with
        | .struct _ r _ => pathOf paths r.name
        | _ => b!"bp3d_proto::codec::ArrayCodec") x))) := by
  cases f with
  | fixed => simp [partGet] at hk
  | array f =>
    simp only [partGet, Option.some.injEq] at hk
    subst hk
    simp only [Fn.call, bindParam, runAll, Tail.run, Expr.eval, Res.bind_ok, SField.loc]
    cases lift (slice b f.loc.byteOffset (f.loc.byteOffset + f.loc.byteSize)) with
    | ok x => simp [checked, Val.hasTy]
    | err => rfl
    | panic => rfl
  | struct n r l =>
    simp only [partGet, Option.some.injEq] at hk
    subst hk
    simp only [Fn.call, bindParam, runAll, Tail.run, Expr.eval, Res.bind_ok, SField.loc]
    cases lift (slice b l.byteOffset (l.byteOffset + l.byteSize)) with
    | ok x => simp [checked, Val.hasTy]
    | err => rfl
    | panic => rfl

end Proto.Rs.Acc
