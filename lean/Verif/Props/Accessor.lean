import Verif.Lang.AccessorRun
import Verif.Lang.RunUnion
import Verif.Props.Views
import Mathlib.Data.List.Nodup
import Mathlib.Data.List.Perm.Lattice
import Mathlib.Data.List.Flatten

/-!
# C69, C70: the generated structure accessors as programs
-/

namespace Proto.Rs.Acc

open Text Props Spec

/-! ## C70: names -/

/-- The names of the scalar fields. -/
def scalars (s : Structure) : List Name :=
  s.fields.filterMap fun
    | .fixed f => some f.name
    | _ => none

/-- The names of the array fields and nested structures. -/
def parts (s : Structure) : List Name :=
  s.fields.filterMap fun
    | .fixed _ => none
    | .array f => some f.name
    | .struct n _ _ => some n

/-- No two accessors of the structure have the same name. -/
def NamesApart (s : Structure) : Prop :=
  (s.fields.map SField.name).Nodup ∧
  (∀ x ∈ scalars s, "raw_".toList ++ x ∉ s.fields.map SField.name) ∧
  (∀ x ∈ parts s, x ++ "_mut".toList ∉ s.fields.map SField.name) ∧
  ∀ x ∈ parts s, ∀ y ∈ scalars s, x ++ "_mut".toList ≠ "raw_".toList ++ y

instance (s : Structure) : Decidable (NamesApart s) := by unfold NamesApart; infer_instance

/-- What follows `get_` in the names of the getters of a field. -/
def gotten : SField → List Name
  | .fixed f => ["raw_".toList ++ f.name, f.name]
  | .array f => [f.name]
  | .struct n _ _ => [n]

theorem scalars_sub {s : Structure} : (scalars s).Sublist (s.fields.map SField.name) := by
  unfold scalars
  induction s.fields with
  | nil => exact .slnil
  | cons f fs ih =>
    cases f
    · exact ih.cons_cons _
    · exact ih.cons _
    · exact ih.cons _

theorem parts_sub {s : Structure} : (parts s).Sublist (s.fields.map SField.name) := by
  unfold parts
  induction s.fields with
  | nil => exact .slnil
  | cons f fs ih =>
    cases f
    · exact ih.cons _
    · exact ih.cons_cons _
    · exact ih.cons_cons _

theorem gotten_perm (fs : List SField) :
    (fs.flatMap gotten).Perm (fs.map SField.name ++ (fs.filterMap fun
      | .fixed f => some f.name
      | _ => none).map ("raw_".toList ++ ·)) := by
  induction fs with
  | nil => exact .nil
  | cons f fs ih =>
    cases f with
    | fixed f =>
      simp only [List.flatMap_cons, gotten, List.map_cons, List.filterMap_cons_some, SField.name, List.cons_append,
        List.nil_append]
      refine (List.Perm.swap ..).trans (.cons _ ?_)
      exact (ih.cons _).trans List.perm_middle.symm
    | array f => simpa [gotten, SField.name] using ih
    | struct n r l => simpa [gotten, SField.name] using ih

theorem getters_names (fs : List SField) :
    (fs.flatMap getters).map Prod.fst = (fs.flatMap gotten).map ("get_".toList ++ ·) := by
  induction fs with
  | nil => rfl
  | cons f fs ih => cases f <;> simp_all [getters, gotten]

/-- The names of the methods taking `&mut self`. -/
def setNames (fs : List SField) : List Name :=
  (fs.flatMap setters).map Prod.fst

theorem setters_perm (fs : List SField) :
    (setNames fs).Perm
      (((fs.filterMap fun
        | .fixed f => some f.name
        | _ => none).flatMap fun n => ["set_".toList ++ ("raw_".toList ++ n), "set_".toList ++ n]) ++
      (fs.filterMap fun
        | .fixed _ => none
        | .array f => some f.name
        | .struct n _ _ => some n).map fun n => "get_".toList ++ (n ++ "_mut".toList)) := by
  unfold setNames
  induction fs with
  | nil => exact .nil
  | cons f fs ih =>
    cases f with
    | fixed f => simpa [setters] using ih
    | array f =>
      simp only [List.flatMap_cons, setters, List.filterMap_cons_some, List.filterMap_cons_none, List.map_cons,
        List.map_append, List.map_nil, List.cons_append, List.nil_append]
      refine (ih.cons _).trans ?_
      rw [List.append_assoc]
      exact List.perm_middle.symm
    | struct n r l =>
      simp only [List.flatMap_cons, setters, List.filterMap_cons_some, List.filterMap_cons_none, List.map_cons,
        List.map_append, List.map_nil, List.cons_append, List.nil_append]
      refine (ih.cons _).trans ?_
      rw [List.append_assoc]
      exact List.perm_middle.symm

/-- C70: the accessors generated for a structure have different names exactly if no two fields have the
same name, no field is called as a scalar field with `raw_` before it or as an array or nested field
with `_mut` after it, and the two additions do not meet. -/
theorem C70_names (s : Structure) : ((methods s).map Prod.fst).Nodup ↔ NamesApart s := by
  have hsub := scalars_sub (s := s)
  have psub := parts_sub (s := s)
  have hperm : ((methods s).map Prod.fst).Perm
      ((s.fields.map SField.name ++ (scalars s).map ("raw_".toList ++ ·)).map ("get_".toList ++ ·) ++
        (((scalars s).flatMap fun n => ["set_".toList ++ ("raw_".toList ++ n), "set_".toList ++ n]) ++
          (parts s).map fun n => "get_".toList ++ (n ++ "_mut".toList))) := by
    unfold methods
    rw [List.map_append, getters_names]
    exact ((gotten_perm _).map _).append (setters_perm _)
  rw [hperm.nodup_iff]
  generalize hN : s.fields.map SField.name = N at *
  unfold NamesApart
  rw [hN]
  generalize scalars s = A at *
  generalize parts s = P at *
  have hinj : ∀ p : Name, Function.Injective (p ++ · : Name → Name) := fun p a b h => List.append_cancel_left h
  constructor
  · intro h
    rw [List.nodup_append] at h
    obtain ⟨h1, h2, h3⟩ := h
    have h1 := h1.of_map
    rw [List.nodup_append] at h1
    obtain ⟨n1, n2, n3⟩ := h1
    refine ⟨n1, ?_, ?_, ?_⟩
    · intro x hx hm
      exact n3 _ hm _ (List.mem_map_of_mem hx) rfl
    · intro x hx hm
      exact h3 _ (List.mem_map_of_mem (List.mem_append_left _ hm)) _
        (List.mem_append_right _ (List.mem_map_of_mem hx)) rfl
    · intro x hx y hy e
      refine h3 _ (List.mem_map_of_mem (List.mem_append_right _ (List.mem_map_of_mem hy))) _
        (List.mem_append_right _ (List.mem_map_of_mem hx)) ?_
      simp only [e]
  · rintro ⟨n1, n2, n3, n4⟩
    have hA : A.Nodup := n1.sublist hsub
    have hP : P.Nodup := n1.sublist psub
    have hmem : ∀ {x}, x ∈ A → x ∈ N := fun h => hsub.subset h
    rw [List.nodup_append]
    refine ⟨(List.nodup_append.2 ⟨n1, hA.map (hinj _), ?_⟩).map (hinj _), List.nodup_append.2 ⟨?_, ?_, ?_⟩, ?_⟩
    · intro a ha b hb e
      obtain ⟨x, hx, rfl⟩ := List.mem_map.1 hb
      exact n2 x hx (e ▸ ha)
    · rw [List.nodup_flatMap]
      constructor
      · intro x hx
        simp only [List.nodup_cons, List.mem_singleton, List.not_mem_nil, not_false_eq_true, List.nodup_nil, and_true]
        intro e
        have := List.append_cancel_left e
        exact n2 x hx (by rw [this]; exact hmem hx)
      · refine hA.imp_of_mem ?_
        intro a b ha hb hne
        simp only [Function.onFun, List.disjoint_left, List.mem_cons, List.not_mem_nil, or_false]
        rintro z (rfl | rfl) (e | e) <;> have e := List.append_cancel_left e
        · exact hne (List.append_cancel_left e)
        · exact n2 a ha (e ▸ hmem hb)
        · exact n2 b hb (e ▸ hmem ha)
        · exact hne e
    · refine hP.map ?_
      intro a b e
      exact List.append_cancel_right (List.append_cancel_left e)
    · intro a ha b hb e
      obtain ⟨x, hx, hx'⟩ := List.mem_flatMap.1 ha
      obtain ⟨y, hy, rfl⟩ := List.mem_map.1 hb
      subst e
      simp at hx'
    · intro a ha b hb e
      subst e
      obtain ⟨x, hx, rfl⟩ := List.mem_map.1 ha
      rcases List.mem_append.1 hb with hb | hb
      · obtain ⟨y, hy, hy'⟩ := List.mem_flatMap.1 hb
        simp at hy'
      · obtain ⟨y, hy, e⟩ := List.mem_map.1 hb
        have e := List.append_cancel_left e
        rcases List.mem_append.1 hx with hx | hx
        · exact n3 y hy (e ▸ hx)
        · obtain ⟨z, hz, rfl⟩ := List.mem_map.1 hx
          exact n4 y hy z hz e

/-! ## C69 -/

/-- The paths written for enums lead to the enums. -/
def EnumPaths (g : Globals) (paths : List (Name × Name)) (s : Structure) : Prop :=
  ∀ f, SField.fixed f ∈ s.fields → ∀ e, f.view = .enum e → g.enums (pathOf paths e.name) = some e

theorem linked {g : Globals} {paths : List (Name × Name)} (hn : NamesApart g.structure_)
    (he : EnumPaths g paths g.structure_) {f : FixedField} (hf : SField.fixed f ∈ g.structure_.fields) :
    Linked g paths f where
  get := method_unique ((C70_names _).2 hn) (getter_mem hf (by simp [getters]))
  set := method_unique ((C70_names _).2 hn) (setter_mem hf (by simp [setters]))
  enum := he f hf

/-- C69: the accessors in the text of a structure are programs. -/
theorem C69_text (lib : Lib) (paths : List (Name × Name)) (f : SField) :
    (∀ x, f = .fixed x →
      fieldGetter lib paths f = (rawGet x).print lib ++ (viewGet paths x).print lib ∧
      fieldSetter lib paths f = (rawSet x).print lib ++ (viewSet paths x).print lib) ∧
    ((∀ x, f ≠ .fixed x) → ∃ k m, partGet paths false f = some k ∧ partGet paths true f = some m ∧
      fieldGetter lib paths f = k.print lib ∧ fieldSetter lib paths f = m.print lib) := by
  constructor
  · rintro x rfl
    rw [← rawGet_print, ← viewGet_print, ← rawSet_print, ← viewSet_print]
    exact ⟨rfl, rfl⟩
  · intro h
    cases f with
    | fixed x => exact absurd rfl (h x)
    | array x => exact ⟨_, _, rfl, rfl, partGet_print lib paths rfl rfl⟩
    | struct n r l => exact ⟨_, _, rfl, rfl, partGet_print lib paths rfl rfl⟩

/-- The functions declared for a field in the block of `&self` methods. -/
def getFns (paths : List (Name × Name)) : SField → List Fn
  | .fixed f => [rawGet f, viewGet paths f]
  | f => (partGet paths false f).toList

/-- The functions declared for a field in the block of `&mut self` methods. -/
def setFns (paths : List (Name × Name)) : SField → List Fn
  | .fixed f => [rawSet f, viewSet paths f]
  | f => (partGet paths true f).toList

/-- C70: the functions in the text of a structure and their names. -/
theorem C70_declared (lib : Lib) (paths : List (Name × Name)) (s : Structure) :
    structureText lib paths s = structureHead lib s ++
      t!"impl<T: AsRef<[u8]>> {Name.utf8 s.name}<T> \{
{all (Fn.print lib) (s.fields.flatMap (getFns paths))}
}
" ++
      t!"impl<T: AsMut<[u8]>> {Name.utf8 s.name}<T> \{
{all (Fn.print lib) (s.fields.flatMap (setFns paths))}
}
" ∧
    (s.fields.flatMap (getFns paths) ++ s.fields.flatMap (setFns paths)).map Fn.name =
      (methods s).map Prod.fst := by
  have hg : ∀ f, fieldGetter lib paths f = all (Fn.print lib) (getFns paths f) := by
    intro f
    cases f with
    | fixed f =>
      rw [((C69_text lib paths _).1 f rfl).1]
      simp [getFns, all]
    | array f => rw [(partGet_print lib paths (f := .array f) rfl rfl).1]; simp [getFns, partGet, all]
    | struct n r l => rw [(partGet_print lib paths (f := .struct n r l) rfl rfl).1]; simp [getFns, partGet, all]
  have hs : ∀ f, fieldSetter lib paths f = all (Fn.print lib) (setFns paths f) := by
    intro f
    cases f with
    | fixed f =>
      rw [((C69_text lib paths _).1 f rfl).2]
      simp [setFns, all]
    | array f => rw [(partGet_print lib paths (f := .array f) rfl rfl).2]; simp [setFns, partGet, all]
    | struct n r l => rw [(partGet_print lib paths (f := .struct n r l) rfl rfl).2]; simp [setFns, partGet, all]
  constructor
  · unfold structureText
    rw [all_flatMap, all_flatMap, all_congr _ fun f _ => hg f, all_congr _ fun f _ => hs f]
  · have h1 : ∀ f, (getFns paths f).map Fn.name = (getters f).map Prod.fst := by
      intro f
      cases f with
      | fixed f => simp only [getFns, viewGet, rawGet, getters]; cases f.view <;> by_cases hb : f.ty = .bool <;> simp [hb, id]
      | array f => simp [getFns, partGet, getters, id]
      | struct n r l => simp [getFns, partGet, getters, id]
    have h2 : ∀ f, (setFns paths f).map Fn.name = (setters f).map Prod.fst := by
      intro f
      cases f with
      | fixed f => simp only [setFns, viewSet, rawSet, setters]; cases f.view <;> rfl
      | array f => simp [setFns, partGet, setters, id]
      | struct n r l => simp [setFns, partGet, setters, id]
    simp only [methods, List.map_append, List.map_flatMap, h1, h2]

/-- C69: what `get_raw_x` and `set_raw_x` do is what the codec theorems say about the field. -/
theorem C69_raw {f : FixedField} (h : Scalar f) (g : Globals) (b : Bytes) :
    (rawGet f).call g b none = (lift (f.getRaw g.p b) >>= fun n => .ok (b, some (.uint f.loc.rawSize n))) ∧
    ∀ v, (rawSet f).call g b (some (.uint f.loc.rawSize v)) =
      (lift (f.setRaw g.p b v) >>= fun b => .ok (b, none)) :=
  ⟨rawGet_run h g b, fun v => rawSet_run h g b v⟩

/-- C69: what `get_x` and `set_x` do is what the view theorems say about the field; in the getter of an
enum, a value up to the largest that is none of the enum's is undefined behaviour.  Float views are those
of exact arithmetic; for Rust's see `C69_ieee`. -/
theorem C69_view {g : Globals} {paths : List (Name × Name)} (hn : NamesApart g.structure_)
    (he : EnumPaths g paths g.structure_) {f : FixedField} (hf : SField.fixed f ∈ g.structure_.fields)
    (h : Scalar f) (ht : Typed f) (hx : ExactIn g f) (b : Bytes) :
    (viewGet paths f).call g b none = (lift (f.getView g.p b) >>= fun v =>
      match f.view, v with
      | .enum e, .enum (some d) =>
        if d ∈ e.variants.map Prod.snd then .ok (b, some (val paths f v)) else .err .undefined
      | _, _ => .ok (b, some (val paths f v))) ∧
    ∀ v r, f.setView g.p b v = some r →
      (viewSet paths f).call g b (some (argOf paths f v)) = (lift r >>= fun b => .ok (b, none)) := by
  have hl := linked hn he hf
  refine ⟨?_, fun v r hr => viewSet_run h ht hl hx hr⟩
  by_cases hv : ∃ e, f.view = .enum e
  · obtain ⟨e, hv⟩ := hv
    rw [enumGet_run h ht hl hv]
    simp only [FixedField.getView, hv, FixedField.viewEnumGet, lift_bind]
    cases lift (f.getRaw g.p b) with
    | ok n =>
      by_cases hn : n > e.largest
      · simp [if_pos hn, lift, pure, val]
      · simp [if_neg hn, lift, pure, val, hv]
    | err => rfl
    | panic => rfl
  · rw [viewGet_run h ht hl hx (fun e he => hv ⟨e, he⟩)]
    congr 1
    funext v
    split
    · next e d he => exact absurd ⟨e, he⟩ hv
    · rfl

/-- C69: an enum that does not have the size of the raw integer type, or a largest value beyond it, makes
the getter one the Rust compiler rejects. -/
theorem C69_enum_rejected {g : Globals} {paths : List (Name × Name)} (hn : NamesApart g.structure_)
    (he : EnumPaths g paths g.structure_) {f : FixedField} (hf : SField.fixed f ∈ g.structure_.fields)
    (h : Scalar f) {e : Enum} (hv : f.view = .enum e) (ht : ¬ Typed f) (b : Bytes) {n : Nat}
    (hr : f.getRaw g.p b = .ok n) (hle : n ≤ e.largest) :
    (viewGet paths f).call g b none = .err .stuck := by
  have hl := linked hn he hf
  have hk := kind_raw h
  simp only [viewGet, hv, Fn.call, bindParam, runAll, Stmt.run, Tail.run, Expr.eval, hl.get, Res.bind_ok, hr, lift,
    List.lookup, beq_self_eq_true, Res.ofOption_some, operand]
  by_cases hm : e.largest < 2 ^ (8 * f.loc.rawSize)
  · have hs : enumBytes e ≠ f.loc.rawSize := by
      intro hs
      apply ht
      simp only [Typed, hv]
      exact ⟨hs, hm⟩
    simp [if_pos hm, Val.cond, if_neg (Nat.not_lt.2 hle), Acc.transmute, Val.hasTy, hk, hl.enum e hv, hs]
  · simp [if_neg hm]

theorem rawSize_of_bits {f : FixedField} (h : Scalar f) (t : Nat) (ht : t = 1 ∨ t = 2 ∨ t = 4 ∨ t = 8)
    (h1 : f.loc.bitSize ≤ 8 * t) (h2 : t ≠ 1 → 4 * t < f.loc.bitSize) : f.loc.rawSize = t := by
  rw [rawSize_eq h]; unfold rawBytes
  rcases ht with rfl | rfl | rfl | rfl <;> simp only [ne_eq, not_true, false_implies, reduceCtorEq, not_false_eq_true, true_implies, OfNat.ofNat_ne_one] at h2 <;> (repeat' split) <;> omega

/-- C69: in a compiled structure the types, sizes and literals of every accessor agree, except perhaps in
enum views. -/
theorem C69_compiled {p : Profile} {structs : List (Name × Structure)} {enums : List (Name × Enum)}
    {e : Endian} {id : Nat} {v : Model.Structure} {s : Structure}
    (h : Structure.fromModel p structs enums e id v = .ok s)
    (hp : p = .checked ∨ declTotal structs v.fields < 2 ^ 64) {f : FixedField}
    (hf : SField.fixed f ∈ s.fields) (hs : Scalar f) :
    Typed f ∨ ∃ n x, f.view = .enum x ∧ enums.lookup n = some x := by
  obtain ⟨_, hlen, _, _, hall⟩ := C08_layout h hp
  obtain ⟨i, hi, hget⟩ := List.getElem_of_mem hf
  obtain ⟨hd, _, _, _, hw, _⟩ := hall i hi (by omega)
  rw [hget] at hd hw
  simp only [Describes, SField.loc] at hd hw
  obtain ⟨_, hal, hty, _, bits, hb, hview⟩ := hd
  have het := C08_element_type _ _ hty
  generalize v.fields[i] = d at *
  have hone : d.arrayLen.getD 1 = 1 := by
    rcases Nat.lt_or_ge (d.arrayLen.getD 1) 1 with h0 | h0
    · have h0 : d.arrayLen.getD 1 = 0 := by omega
      unfold declWidth at hw
      cases hinfo : d.info <;> simp only [hinfo, h0, Nat.mul_zero] at hw het hb
      all_goals first
        | omega
        | exact het.elim
    · omega
  unfold declWidth at hw
  unfold Typed
  cases hinfo : d.info with
  | struct n => rw [hinfo] at het; exact het.elim
  | boolean n =>
    rw [hinfo] at het hview
    simp only [ElementType] at het
    cases hvw : d.view with
    | none =>
      rw [hvw] at hview
      simp [View.fromModel, Model.FieldTy.simple] at hview
      left; rw [← hview]; exact .inl het
    | some x =>
      rw [hvw] at hview
      cases x <;> simp [View.fromModel, Model.FieldTy.simple] at hview
  | unsigned n =>
    rw [hinfo] at het hview hb hw
    simp only [hone, Nat.mul_one] at hw
    simp only [Model.FieldTy.bitSize?, Option.some.injEq] at hb
    subst hb
    obtain ⟨hm, _, h1, h2⟩ := het
    cases hvw : d.view with
    | none =>
      rw [hvw] at hview
      simp [View.fromModel, Model.FieldTy.simple] at hview
      left
      rw [← hview]
      simp only [List.mem_cons, List.not_mem_nil, or_false] at hm
      have hraw : f.loc.rawSize = f.ty.byteSize := by
        rcases hm with hm | hm | hm | hm <;> rw [hm] at h1 h2 ⊢ <;> simp [FixedTy.byteSize] at h1 h2 <;>
        exact rawSize_of_bits hs _ (by decide) (by simp only [FixedTy.byteSize]; omega) (by simp only [FixedTy.byteSize]; omega)
      rw [hraw]
      rcases hm with hm | hm | hm | hm <;> rw [hm] <;> rfl
    | some x =>
      rw [hvw] at hview
      cases x with
      | enum nm =>
        simp only [View.fromModel, Model.FieldTy.simple, ne_eq, not_true_eq_false, if_false] at hview
        obtain ⟨r, hr, hview⟩ := Res.bind_eq_ok.1 hview
        exact .inr ⟨nm, r, (Res.ok.inj hview).symm, Res.ofOption_eq_ok hr⟩
      | _ => simp [View.fromModel, Model.FieldTy.simple] at hview
  | signed n =>
    rw [hinfo] at het hview hb hw
    simp only [hone, Nat.mul_one] at hw
    simp only [Model.FieldTy.bitSize?, Option.some.injEq] at hb
    subst hb
    obtain ⟨hm, h0, h1, h2⟩ := het
    have hkind : kind f.ty = .signed f.loc.rawSize := by
      simp only [List.mem_cons, List.not_mem_nil, or_false] at hm
      have hraw : f.loc.rawSize = f.ty.byteSize := by
        rcases hm with hm | hm | hm | hm <;> rw [hm] at h1 h2 ⊢ <;> simp [FixedTy.byteSize] at h1 h2 <;>
        exact rawSize_of_bits hs _ (by decide) (by simp only [FixedTy.byteSize]; omega) (by simp only [FixedTy.byteSize]; omega)
      rw [hraw]
      rcases hm with hm | hm | hm | hm <;> rw [hm] <;> rfl
    left
    cases hvw : d.view with
    | none =>
      rw [hvw] at hview
      simp only [View.fromModel, Model.FieldTy.simple, reduceCtorEq, false_and, if_false, true_and] at hview
      split at hview
      · have h63 : n - 1 < 64 := by have := hs.2; omega
        have hpos := Nat.two_pow_pos (n - 1)
        have hpow : 2 ^ (n - 1) < 2 ^ 64 := Nat.pow_lt_pow_right (by omega) h63
        rw [subU_ok p (by omega)] at hview
        simp only [Res.bind_ok] at hview
        rw [shlU_ok p (by unfold usizeBits; omega)] at hview
        simp only [Res.bind_ok, Nat.one_shiftLeft, usizeBits, Nat.mod_eq_of_lt hpow] at hview
        rw [subU_ok p hpos] at hview
        rw [← Res.ok.inj hview]
        refine ⟨hkind, ?_⟩
        have : 2 ^ (n - 1) ≤ 2 ^ (8 * f.loc.rawSize) := Nat.pow_le_pow_right (by omega) (by
          have := (Loc.rawSize_le hs.1 hs.2).2.2; omega)
        omega
      · rw [← Res.ok.inj hview]
        exact .inr (.inl hkind)
    | some x =>
      rw [hvw] at hview
      cases x <;> simp [View.fromModel, Model.FieldTy.simple] at hview
  | float n =>
    rw [hinfo] at het hview hb hw
    simp only [hone, Nat.mul_one] at hw
    simp only [Model.FieldTy.bitSize?, Option.some.injEq] at hb
    subst hb
    obtain ⟨h0, h1, h32, h64⟩ := het
    left
    cases hvw : d.view with
    | none =>
      rw [hvw] at hview
      simp only [View.fromModel, Model.FieldTy.simple, true_and] at hview
      split at hview
      · cases hview
      · next hn =>
        simp only [reduceCtorEq, false_and, if_false] at hview
        rw [← Res.ok.inj hview]
        right; right
        rcases (show n = 32 ∨ n = 64 by omega) with rfl | rfl
        · rw [h32.2 (.inr rfl)]
          simp only [kind]; rw [rawSize_of_bits hs 4 (by decide) (by omega) (by omega)]
        · rw [h64.2 (by omega)]
          simp only [kind]; rw [rawSize_of_bits hs 8 (by decide) (by omega) (by omega)]
    | some x =>
      have hf : ∃ w, kind f.ty = .float w := by
        by_cases hn : n ≤ 16 ∨ n = 32
        · exact ⟨4, by rw [h32.2 hn]; rfl⟩
        · exact ⟨8, by rw [h64.2 (by omega)]; rfl⟩
      rw [hvw] at hview
      cases x with
      | enum nm => simp [View.fromModel, Model.FieldTy.simple] at hview
      | floatRange a b =>
        simp only [View.fromModel, Model.FieldTy.simple, ne_eq, not_true_eq_false, if_false] at hview
        obtain ⟨_, _, hview⟩ := Res.bind_eq_ok.1 hview
        obtain ⟨_, _, hview⟩ := Res.bind_eq_ok.1 hview
        rw [← Res.ok.inj hview]; exact hf
      | floatMultiplier m =>
        simp only [View.fromModel, Model.FieldTy.simple, ne_eq, not_true_eq_false, if_false] at hview
        rw [← Res.ok.inj hview]; exact hf

/-- A field declared without a view has none that computes floats. -/
theorem view_none_float {p : Profile} {enums : List (Name × Enum)} {t : Model.SimpleTy} {n : Nat} {a b ai bi : Rat} :
    View.fromModel p enums t n none ≠ .ok (.float a b ai bi) := by
  intro hv
  simp only [View.fromModel] at hv
  repeat' split at hv
  all_goals first
    | (cases hv; done)
    | skip
  obtain ⟨_, _, hv⟩ := Res.bind_eq_ok.1 hv
  obtain ⟨_, _, hv⟩ := Res.bind_eq_ok.1 hv
  obtain ⟨_, _, hv⟩ := Res.bind_eq_ok.1 hv
  cases hv

/-- C69, end to end for signed fields: the text of the getter is a program that, on any buffer of at least
the structure's size, returns the two's complement value of the field's bits; the setter's stores the
low bits of its argument there. -/
theorem C69_signed {p : Profile} {structs : List (Name × Structure)} {enums : List (Name × Enum)}
    {d : Model.Structure} {s : Structure} {i : Nat} {v : Model.SField}
    (h : Compiled p structs enums d s i v) {n : Nat} (hty : v.info = .signed n) (hview : v.view = none)
    (hn : NamesApart s) (lib : Lib) (paths : List (Name × Name)) {g : Globals} (hg : g.p = p)
    (hs : g.structure_ = s) (he : EnumPaths g paths s) :
    ∃ f rg rs k m, s.fields[i]? = some (.fixed f) ∧
      fieldGetter lib paths (.fixed f) = rg ++ Fn.print lib k ∧
      fieldSetter lib paths (.fixed f) = rs ++ Fn.print lib m ∧
      ∀ buf : Bytes, s.byteSize ≤ buf.length → buf.length < 2 ^ 64 →
        k.call g buf none = .ok (buf, some (.int f.ty.byteSize
          (twosComplement n (bitsLE buf (declTotal structs (d.fields.take i)) n)))) ∧
        ∀ x : Int, ∃ b, m.call g buf (some (.int f.ty.byteSize x)) = .ok (b, none) ∧
          BitsReplaced buf b (declTotal structs (d.fields.take i)) n (pattern n x) := by
  obtain ⟨f, hf, hall⟩ := C13_signed_view h hty hview
  obtain ⟨f', hf', hc⟩ := h.get (bits := n) (by rw [hty]; rfl)
  rw [hf] at hf'
  cases hf'
  have hsc : Scalar f := ⟨by rw [hc.width]; exact hc.w1, by rw [hc.width]; exact hc.w64⟩
  have hmem : SField.fixed f ∈ s.fields := List.mem_of_getElem? hf
  have hv := hc.view
  rw [hty, hview] at hv
  have hne : ∀ e, f.view ≠ .enum e := by
    intro e hve
    rw [hve] at hv
    simp only [View.fromModel, Model.FieldTy.simple, reduceCtorEq, false_and, if_false, true_and] at hv
    split at hv
    · obtain ⟨_, _, hv⟩ := Res.bind_eq_ok.1 hv
      obtain ⟨_, _, hv⟩ := Res.bind_eq_ok.1 hv
      obtain ⟨_, _, hv⟩ := Res.bind_eq_ok.1 hv
      cases hv
    · cases hv
  obtain ⟨id, hcomp⟩ := h.compiles
  have ht : Typed f := by
    rcases C69_compiled hcomp h.size hmem hsc with ht | ⟨_, x, hx, _⟩
    · exact ht
    · exact absurd hx (hne x)
  have hkind : f.loc.rawSize = f.ty.byteSize := by
    have het := C08_element_type _ _ hc.ty
    rw [hty] at het
    obtain ⟨hm, _, h1, h2⟩ := het
    rw [← hc.width] at h1 h2
    simp only [List.mem_cons, List.not_mem_nil, or_false] at hm
    rcases hm with hm | hm | hm | hm <;> rw [hm] at h1 h2 ⊢ <;> simp [FixedTy.byteSize] at h1 h2 <;>
    exact rawSize_of_bits hsc _ (by decide) (by simp only [FixedTy.byteSize]; omega) (by simp only [FixedTy.byteSize]; omega)
  subst hs
  have hx : ExactIn g f := by
    intro a b ai bi hfl
    rw [hfl] at hv
    exact absurd hv view_none_float
  have hview := fun b => C69_view hn he hmem hsc ht hx b
  refine ⟨f, _, _, _, _, hf, ((C69_text lib paths _).1 f rfl).1, ((C69_text lib paths _).1 f rfl).2, ?_⟩
  intro buf h1 h2
  obtain ⟨hget, hset⟩ := hall buf h1 h2
  constructor
  · rw [(hview buf).1, hg, hget]
    simp only [lift, Res.bind_ok, val, hkind]
    split
    · next hve _ => exact absurd hve (hne _)
    · rfl
  · intro x
    obtain ⟨b, hb, hr, _⟩ := hset x
    refine ⟨b, ?_, hr⟩
    have := (hview buf).2 (.int x) (.ok b) (by rw [hg]; exact hb)
    rw [← hkind]
    exact this

/-! ## Cases -/

namespace Ex

/-- A structure with a field of each kind: a 3-bit signed field, a 5-bit boolean, an enum, a scaled float,
a float, an array and a nested structure. -/
def inner : Structure := .mk 1 ['I'] [.fixed ⟨['k'], .u8, ⟨0, 0, 1, 8⟩, .none, .little⟩] 1 8

def colour : Enum := ⟨['C'], 2, [(['R'], 0), (['B'], 2)]⟩

def sgn : FixedField := ⟨['s'], .i8, ⟨0, 0, 1, 3⟩, .signedCast 3, .little⟩
def flag : FixedField := ⟨['f'], .bool, ⟨0, 3, 1, 5⟩, .transmute, .little⟩
def col : FixedField := ⟨['c'], .u8, ⟨1, 0, 1, 8⟩, .enum colour, .little⟩
def scaled : FixedField := ⟨['x'], .f32, ⟨2, 0, 1, 8⟩, .float (1/2) 1 2 (-1), .little⟩
def real : FixedField := ⟨['r'], .f32, ⟨3, 0, 4, 32⟩, .transmute, .little⟩
def arr : ArrayField := ⟨['a'], .u8, 2, ⟨7, 0, 2, 16⟩, .little⟩

def all : Structure := .mk 0 ['S']
  [.fixed sgn, .fixed flag, .fixed col, .fixed scaled, .fixed real, .array arr, .struct ['n'] inner ⟨9, 0, 1, 8⟩] 10 80

def paths : List (Name × Name) := [(['C'], "super::enums".toList), (['I'], "super::structures".toList)]

def g : Globals where
  p := .checked
  structure_ := all
  enums b := if b = pathOf paths ['C'] then some colour else none
  num := .exact

theorem apart : NamesApart all := by decide

theorem enumPaths : EnumPaths g paths all := by
  intro f hf e he
  simp only [all, Structure.fields, List.mem_cons, SField.fixed.injEq, reduceCtorEq, List.not_mem_nil, or_false] at hf
  rcases hf with rfl | rfl | rfl | rfl | rfl <;> cases he
  rfl

theorem typed : ∀ f ∈ [sgn, flag, col, scaled, real], Scalar f ∧ Typed f := by
  intro f hf
  simp only [List.mem_cons, List.not_mem_nil, or_false] at hf
  rcases hf with rfl | rfl | rfl | rfl | rfl
  · exact ⟨by decide, by decide, by decide⟩
  · exact ⟨by decide, .inl rfl⟩
  · exact ⟨by decide, by decide, by decide⟩
  · exact ⟨by decide, 4, rfl⟩
  · exact ⟨by decide, .inr (.inr rfl)⟩

def buf : Bytes := [0b00001101, 2, 8, 0, 0, 128, 63, 5, 6, 7]

example : (viewGet paths sgn).call g buf none = .ok (buf, some (.int 1 (-3))) := by decide +kernel
example : (viewGet paths flag).call g buf none = .ok (buf, some (.bool true)) := by decide +kernel
example : (viewGet paths col).call g buf none =
    .ok (buf, some (.some (.enum (pathOf paths ['C']) 2))) := by decide +kernel
example : (viewGet paths scaled).call g buf none = .ok (buf, some (.real 4 (.fin 5))) := by decide +kernel
example : (viewGet paths real).call g buf none = .ok (buf, some (.bits 4 0x3f800000)) := by decide +kernel
example : (viewSet paths sgn).call g buf (some (.int 1 (-1))) =
    .ok ([0b00001111, 2, 8, 0, 0, 128, 63, 5, 6, 7], none) := by decide +kernel
/-- One is not a value of the enum. -/
example : (viewGet paths col).call g [0, 1, 8, 0, 0, 128, 63, 5, 6, 7] none = .err .undefined := by decide +kernel

end Ex

/-- C70: the compiler accepts structures whose accessors collide. -/
theorem C70_accepted :
    ∃ v : Model.Structure, ∃ s, Structure.fromModel .checked [] [] .little 0 v = .ok s ∧
      (v.fields.map Model.SField.name).Nodup ∧ ¬ NamesApart s :=
  ⟨{ name := ['S'], fields := [ { name := ['x'], info := .unsigned 8 },
                                { name := "raw_x".toList, info := .unsigned 8 } ] }, _, rfl, by decide, by decide⟩

/-- C69: the compiler accepts enum views whose getter the Rust compiler rejects: a value of a 16-bit field
does not become an enum of one byte. -/
theorem C69_enum_accepted :
    ∃ (v : Model.Structure) (e : Enum) (s : Structure) (f : FixedField),
      Structure.fromModel .checked [] [(['C'], e)] .little 0 v = .ok s ∧ SField.fixed f ∈ s.fields ∧
      f.view = .enum e ∧ Scalar f ∧ ¬ Typed f :=
  ⟨{ name := ['S'], fields := [ { name := ['x'], info := .unsigned 16, view := some (.enum ['C']) } ] }, Ex.colour, _,
    ⟨['x'], .u16, ⟨0, 0, 2, 16⟩, .enum Ex.colour, .little⟩, rfl, by simp [Structure.fields]; rfl, rfl, by decide, by
      intro h
      exact absurd h.1 (by decide)⟩

end Proto.Rs.Acc
