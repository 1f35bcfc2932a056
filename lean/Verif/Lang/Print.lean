import Verif.Lang.Code

/-!
# The generated functions, printed
-/

namespace Proto.Rs

open Text

theorem utf8_append (a b : Name) : Name.utf8 (a ++ b) = Name.utf8 a ++ Name.utf8 b := by
  simp [Name.utf8, List.flatMap_append]

theorem utf8_slice : (id "slice").utf8 = b!"slice" := by krfl
theorem utf8_byteOffset : (id "byte_offset").utf8 = b!"byte_offset" := by krfl
theorem utf8_offsets : (id "offsets").utf8 = b!"offsets" := by krfl
theorem utf8_data : (id "data").utf8 = b!"data" := by krfl
theorem utf8_size : (id "size").utf8 = b!"size" := by krfl
theorem utf8_intoInner : (id "into_inner").utf8 = b!"into_inner" := by krfl
theorem utf8_input : (id "input").utf8 = b!"input" := by krfl
theorem utf8_out : (id "out").utf8 = b!"out" := by krfl
theorem utf8_self : (id "self").utf8 = b!"self" := by krfl
theorem utf8_v : (id "v").utf8 = b!"v" := by krfl
theorem utf8_discriminant : (id "discriminant").utf8 = b!"discriminant" := by krfl
theorem utf8_discriminantValue : (id "discriminant_value").utf8 = b!"discriminant_value" := by krfl
theorem utf8_get : (id "get_").utf8 = b!"get_" := by krfl
theorem utf8_mut : (id "_mut").utf8 = b!"_mut" := by krfl
theorem utf8_getRaw : (id "get_raw_").utf8 = b!"get_raw_" := by krfl
theorem utf8_setRaw : (id "set_raw_").utf8 = b!"set_raw_" := by krfl
theorem utf8_msg : Name.utf8 "_msg".toList = b!"_msg" := by krfl
theorem utf8_suffixOffsets : Name.utf8 "_offsets".toList = b!"_offsets" := by krfl
theorem spaces_8 : spaces 8 = b!"        " := by krfl
theorem spaces_12 : spaces (8 + 4) = b!"            " := by krfl
theorem spaces_12' : spaces 12 = b!"            " := by krfl
theorem spaces_16 : spaces (12 + 4) = b!"                " := by krfl
theorem display_zero : display 0 = b!"0" := by krfl

theorem all_nil (f : α → Bytes) : all f [] = [] := rfl
theorem all_cons (f : α → Bytes) (x : α) (xs : List α) : all f (x :: xs) = f x ++ all f xs := rfl
theorem all_append (f : α → Bytes) (xs ys : List α) : all f (xs ++ ys) = all f xs ++ all f ys := by
  simp [all]
theorem all_flatMap (f : β → Bytes) (h : α → List β) (xs : List α) :
    all f (xs.flatMap h) = all (fun x => all f (h x)) xs := by
  induction xs with
  | nil => rfl
  | cons x xs ih => rw [List.flatMap_cons, all_append, all_cons, ih]
theorem all_map (f : β → Bytes) (h : α → β) (xs : List α) : all f (xs.map h) = all (fun x => f (h x)) xs := by
  simp [all, Function.comp_def]
theorem all_congr {f h : α → Bytes} (xs : List α) (e : ∀ x ∈ xs, f x = h x) : all f xs = all h xs := by
  unfold all; rw [List.map_congr_left e]

theorem tyOf_print (paths : List (Name × Name)) (sized : Bool) (e : Endian) (t : MFieldTy) :
    (tyOf paths sized e t).print = inlineType paths (readList sized) e t := by
  cases t with
  | ref r => cases r <;> rfl
  | list => cases sized <;> rfl
  | _ => rfl

theorem codecOf_print (paths : List (Name × Name)) (sized : Bool) (f : MField) :
    (codecOf paths sized f).print = codecType paths (readList sized) f := by
  unfold codecOf codecType
  split <;> simp only [Ty.print, tyOf_print]

theorem decodeField_print (paths : List (Name × Name)) (sized : Bool) (f : MField) :
    all Stmt.print (decodeField paths sized f) = fieldFromSlice paths sized f := by
  obtain ⟨n, ty, o, sz, e⟩ := f
  cases ty <;>
  simp only [decodeField, callOf, restE, all_cons, all_nil, Stmt.print, fieldFromSlice, Expr.print, msgVar,
    suffixed, utf8_append, codecOf_print, Fun.print, utf8_slice, utf8_byteOffset, utf8_size,
    utf8_intoInner, utf8_msg, List.append_assoc, List.cons_append, List.nil_append, List.append_nil,
    MField.name, MField.ty]

theorem decodeFieldOff_print (paths : List (Name × Name)) (sized : Bool) (f : MField) :
    all Stmt.print (decodeFieldOff paths sized f) = fieldOffsets paths sized f := by
  obtain ⟨n, ty, o, sz, e⟩ := f
  have aux : ∀ r, ty = .ref r →
      all Stmt.print (decodeFieldOff paths sized (.mk n ty o sz e)) = fieldOffsets paths sized (.mk n ty o sz e) := by
    rintro (s | m) rfl <;>
    simp only [decodeFieldOff, callOf, restE, all_cons, all_nil, Stmt.print, fieldOffsets, Expr.print, msgVar,
      offVar, suffixed, utf8_append, codecOf_print, Fun.print, utf8_slice, utf8_byteOffset, utf8_size,
      utf8_intoInner, utf8_msg, utf8_suffixOffsets, utf8_offsets, List.append_assoc, List.cons_append,
      List.nil_append, List.append_nil, MField.name, MField.ty]
  cases ty with
  | ref r => exact aux r rfl
  | _ =>
    simp only [decodeFieldOff, callOf, restE, all_cons, all_nil, Stmt.print, fieldOffsets, Expr.print, msgVar,
      suffixed, utf8_append, codecOf_print, Fun.print, utf8_slice, utf8_byteOffset, utf8_size,
      utf8_intoInner, utf8_msg, utf8_offsets, List.append_assoc, List.cons_append,
      List.nil_append, List.append_nil, MField.name, MField.ty]

theorem encodeField_print (paths : List (Name × Name)) (f : MField) :
    (encodeField paths f).print = fieldWrite paths f := by
  obtain ⟨n, ty, o, sz, e⟩ := f
  have hs : readList true = sizedList := rfl
  cases ty <;>
  simp only [encodeField, inputE, outE, Stmt.print, fieldWrite, Expr.print,
    codecOf_print, Fun.print, utf8_input, utf8_out, hs,
    List.append_assoc, List.cons_append, List.nil_append, List.append_nil,
    MField.name, MField.ty]

/-- The text of the decoder is its program. -/
theorem decoder_print (paths : List (Name × Name)) (sized : Bool) (m : Message) :
    fromSliceText paths sized m =
      t!"impl<'a> bp3d_proto::message::FromSlice<'a> for {Name.utf8 m.name}{messageGenerics m} \{
    type Output = Self;
    fn from_slice(slice: &'a [u8]) -> bp3d_proto::message::Result<bp3d_proto::message::Message<Self>> \{
{(decoder paths sized m).print}    }
}
" := by
  simp only [fromSliceText, decoder, Body.print, Tail.print, Stmt.print, Expr.print, all_cons, all_append,
    all_flatMap, all_nil, all_map, decodeField_print, utf8_byteOffset, utf8_data, display_zero, spaces_8,
    spaces_12, fieldName, List.append_assoc, List.append_nil]
  krfl

set_option maxRecDepth 4000 in
/-- The text of the decoder recording offsets is its program. -/
theorem offsetsDecoder_print (paths : List (Name × Name)) (sized : Bool) (m : Message) :
    offsetsText paths sized m =
      t!"#[derive(Copy, Clone, Debug, Default)]
pub struct {Name.utf8 m.name}Offsets \{
{all (offsetDecl paths) m.fields}
}

impl<'a> bp3d_proto::message::FromSliceWithOffsets<'a> for {Name.utf8 m.name}{messageGenerics m} \{
    type Offsets = {Name.utf8 m.name}Offsets;
    fn from_slice_with_offsets(slice: &'a [u8]) -> bp3d_proto::message::Result<bp3d_proto::message::Message<(Self, Self::Offsets)>> \{
{(offsetsDecoder paths sized m).print}    }
}
" := by
  simp only [offsetsText, offsetsDecoder, Body.print, Tail.print, Stmt.print, Expr.print, all_cons, all_append,
    all_flatMap, all_nil, all_map, decodeFieldOff_print, utf8_byteOffset, utf8_data, utf8_offsets,
    display_zero, spaces_8,
    spaces_12, fieldName, List.append_assoc, List.append_nil]
  krfl

/-- The text of the encoder is its program. -/
theorem encoder_print (paths : List (Name × Name)) (m : Message) :
    writeText paths m =
      t!"impl{messageGenerics m} bp3d_proto::message::WriteTo for {Name.utf8 m.name}{messageGenerics m} \{
    type Input = Self;
    fn write_to<W: std::io::Write>(input: &Self, mut out: W) -> bp3d_proto::message::Result<()> \{
{(encoder paths m).print}    }
}
" := by
  have he : all Stmt.print (m.fields.map (encodeField paths)) = all (fieldWrite paths) m.fields := by
    rw [all_map]
    exact all_congr _ fun f _ => encodeField_print paths f
  simp only [writeText, encoder, Body.print, Tail.print, Stmt.print, Expr.print, all_cons, all_append,
    all_nil, he, List.append_assoc, List.append_nil]
  krfl

/-! ## Unions -/

theorem readPath_cons (n : Name) (ns : List Name) (leaf : Name) :
    readPath (n :: ns) (some leaf) = t!"get_{Name.utf8 n}().{readPath ns (some leaf)}" := by
  cases ns <;>
  simp [readPath, List.intercalate_cons_cons]

theorem writePath_cons (n : Name) (ns : List Name) (leaf : Name) :
    writePath (n :: ns) (some leaf) = t!"get_{Name.utf8 n}_mut().{writePath ns (some leaf)}" := by
  cases ns <;>
  simp [writePath, List.intercalate_cons_cons]

theorem chain_print (ind : Nat) (names : List Name) (leaf : Name) (e : Expr) :
    (Expr.method (names.foldl (fun e n => .method e (id "get_" ++ n)) e) (id "get_raw_" ++ leaf)).print ind =
      t!"{e.print ind}.{readPath names (some leaf)}" := by
  induction names generalizing e with
  | nil => simp [Expr.print, readPath, List.intercalate_singleton, utf8_append, utf8_getRaw]
  | cons n ns ih =>
    rw [List.foldl_cons, ih, readPath_cons]
    simp [Expr.print, utf8_append, utf8_get]

theorem readE_print (ind : Nat) (names : List Name) (leaf : Name) :
    (readE names leaf).print ind = t!"discriminant.{readPath names (some leaf)}" := by
  rw [readE, chain_print, Expr.print, utf8_discriminant]; simp

theorem chainMut_print (ind : Nat) (names : List Name) (leaf : Name) (e a : Expr) :
    (Expr.method1 (names.foldl (fun e n => .method e (id "get_" ++ n ++ id "_mut")) e)
      (id "set_raw_" ++ leaf) a).print ind =
      t!"{e.print ind}.{writePath names (some leaf)}({a.print ind})" := by
  induction names generalizing e with
  | nil => simp [Expr.print, writePath, List.intercalate_singleton, utf8_append, utf8_setRaw]
  | cons n ns ih =>
    rw [List.foldl_cons, ih, writePath_cons]
    simp [Expr.print, utf8_append, utf8_get, utf8_mut]

theorem storeE_print (ind : Nat) (names : List Name) (leaf : Name) (a : Expr) :
    (storeE names leaf a).print ind = t!"discriminant.{writePath names (some leaf)}({a.print ind})" := by
  rw [storeE, chainMut_print, Expr.print, utf8_discriminant]; simp

theorem decodeArm_print (paths : List (Name × Name)) (k : UCase) :
    t!"{(decodeArm paths k).print 12},
" = caseFromSlice paths k := by
  obtain ⟨n, v, t⟩ := k
  rcases t with _ | (s | m) <;>
  simp only [decodeArm, Arm.print, Pat.print, Expr.print, caseFromSlice, pathTy, Ty.print, Fun.print,
    utf8_slice, display_zero, spaces_12', List.append_assoc, List.cons_append, List.nil_append,
    UCase.itemType, UCase.name, UCase.case]

set_option maxRecDepth 4000 in
theorem encodeArm_print (paths : List (Name × Name)) (k : UCase) :
    printArms 12 (encodeArm paths k) = caseWriteTo paths k := by
  obtain ⟨n, v, t⟩ := k
  rcases t with _ | (s | m)
  · rfl
  all_goals
    simp only [printArms, all_cons, all_nil, encodeArm, Arm.print, Pat.print, Expr.print, caseWriteTo, pathTy,
      Ty.print, Fun.print, outE, utf8_out, utf8_v, utf8_discriminant, spaces_12', spaces_16,
      List.append_assoc, List.cons_append, List.nil_append, List.append_nil, UCase.itemType,
      UCase.name, UCase.case]

theorem storeArm_print (k : UCase) :
    t!"{(storeArm k).print 12},
" = caseSet k := by
  obtain ⟨n, v, t⟩ := k
  cases t <;>
  simp only [storeArm, Arm.print, Pat.print, Expr.print, caseSet, spaces_12', List.append_assoc,
    List.cons_append, List.nil_append, UCase.itemType, UCase.name, UCase.case]

theorem hasContent_iff (u : Union) :
    (∃ c ∈ u.cases, c.itemType.isSome = true) ↔ hasContent u = true := by
  simp [hasContent]

/-- The text of a union's decoder is its program. -/
theorem unionDecoder_print (paths : List (Name × Name)) (u : Union) (names : List Name) (leaf : Name) :
    (unionDecoder paths u names leaf).print =
      (if hasContent u then b!"        use bp3d_proto::message::FromSlice;\n" else []) ++
      t!"        let discriminant = discriminant.{readPath names (some leaf)};
        match discriminant \{
{all (caseFromSlice paths) u.cases}
            _ => Err(bp3d_proto::message::Error::InvalidUnionDiscriminant(discriminant as _))
        }
" := by
  have hc : printArms 12 (u.cases.map (decodeArm paths)) = all (caseFromSlice paths) u.cases := by
    rw [printArms, all_map]
    exact all_congr _ fun k _ => decodeArm_print paths k
  unfold unionDecoder
  cases hasContent u <;>
  simp only [Body.print, Tail.print, Stmt.print, all_cons, all_nil, hc, if_true, Bool.false_eq_true,
    if_false, readE_print, Expr.print, utf8_discriminant, unknownArm, Arm.print, Pat.print, spaces_12',
    List.append_assoc, List.cons_append, List.nil_append]

/-- The text of a union's encoder is its program. -/
theorem unionEncoder_print (paths : List (Name × Name)) (u : Union) (names : List Name) (leaf : Name) :
    (unionEncoder paths u names leaf).print =
      (if hasContent u then t!"        use bp3d_proto::message::WriteTo;
        let discriminant = discriminant.{readPath names (some leaf)};
        match input \{
{all (caseWriteTo paths) u.cases}
            _ => ()
        };
        Ok(())
" else b!"        Ok(())\n") := by
  have hc : printArms 12 (u.cases.flatMap (encodeArm paths)) = all (caseWriteTo paths) u.cases := by
    rw [printArms, all_flatMap]
    exact all_congr _ fun k _ => encodeArm_print paths k
  unfold unionEncoder
  cases hasContent u <;>
  simp only [Body.print, Tail.print, Stmt.print, all_cons, all_nil, hc, if_true, Bool.false_eq_true,
    if_false, readE_print, Expr.print, utf8_discriminant, utf8_input, Arm.print, Pat.print, spaces_12',
    List.append_assoc, List.cons_append, List.nil_append]

/-- The text of `set_discriminant` is its program. -/
theorem unionStore_print (u : Union) (names : List Name) (leaf : Name) :
    (unionStore u names leaf).print =
      t!"        let discriminant_value = match self \{
{all caseSet u.cases}
        };
        discriminant.{writePath names (some leaf)}(discriminant_value);
" := by
  have hc : printArms 12 (u.cases.map storeArm) = all caseSet u.cases := by
    rw [printArms, all_map]
    exact all_congr _ fun k _ => storeArm_print k
  unfold unionStore
  simp only [Body.print, Tail.print, Stmt.print, all_cons, all_nil, hc, storeE_print, Expr.print,
    utf8_discriminantValue, utf8_self, List.append_assoc, List.cons_append, List.nil_append,
    List.append_nil]

/-- The text of `as_x` and `is_x` is their program. -/
theorem caseAccessor_print (paths : List (Name × Name)) (k : UCase) :
    caseGetter paths k =
      (match k.itemType with
      | none => t!"    pub fn is_{lower (Name.utf8 k.name)}(&self) -> bool \{
"
      | some (.struct s) =>
        t!"    pub fn as_{lower (Name.utf8 k.name)}(&self) -> Option<&{pathOf paths s.name}<&'a [u8]>> \{
"
      | some (.message m) =>
        t!"    pub fn as_{lower (Name.utf8 k.name)}(&self) -> Option<&{pathOf paths m.name}<'a>> \{
") ++ (caseAccessor k).print ++ b!"    }\n" := by
  obtain ⟨n, v, t⟩ := k
  rcases t with _ | (s | m) <;>
  simp only [caseAccessor, caseGetter, Body.print, Tail.print, all_nil, Expr.print, Arm.print, Pat.print,
    utf8_v, utf8_self, spaces_12', List.append_assoc, List.cons_append, List.nil_append, if_true,
    Bool.false_eq_true, if_false, UCase.itemType, UCase.name]

/-- The text of a union is made of its programs. -/
theorem union_print (paths : List (Name × Name)) (u : Union) (names : List Name) (leaf : Name) :
    unionText paths u (readPath names (some leaf)) (writePath names (some leaf)) =
      t!"#[derive(Copy, Clone, Debug)]
pub enum {Name.utf8 u.name}{unionGenerics u} \{
{all (caseDecl paths) u.cases}
}
" ++
      t!"impl<'a> {Name.utf8 u.name}{unionGenerics u} \{
    pub fn from_slice({if hasContent u then b!"slice" else b!"_"}: &'a [u8], discriminant: &{pathOf paths u.discriminant.root.name}<&'a [u8]>) -> bp3d_proto::message::Result<bp3d_proto::message::Message<Self>> \{
{(unionDecoder paths u names leaf).print}    }

}
" ++
      t!"impl<'a> {Name.utf8 u.name}{unionGenerics u} \{
    pub fn write_to<W: std::io::Write>({if hasContent u then b!"input" else b!"_"}: &Self, {if hasContent u then b!"discriminant" else b!"_"}: &{pathOf paths u.discriminant.root.name}<&'a [u8]>, {if hasContent u then b!"mut out" else b!"_"}: W) -> bp3d_proto::message::Result<()> \{
{(unionEncoder paths u names leaf).print}    }

}
" ++
      t!"impl{unionGenerics u} {Name.utf8 u.name}{unionGenerics u} \{
    pub fn set_discriminant<T: AsMut<[u8]>>(&self, discriminant: &mut {pathOf paths u.discriminant.root.name}<T>) \{
{(unionStore u names leaf).print}    }
}
" ++
      t!"impl{unionGenerics u} {Name.utf8 u.name}{unionGenerics u} \{
{all (caseGetter paths) u.cases}
}
" := by
  simp only [unionText, unionDecoder_print, unionEncoder_print, unionStore_print, hasContent_iff]
  cases hasContent u <;>
  simp only [if_true, Bool.false_eq_true, if_false, List.append_assoc] <;> krfl

end Proto.Rs
