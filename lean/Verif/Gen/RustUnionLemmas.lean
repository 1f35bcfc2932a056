import Verif.Gen.RustLemmas

/-!
# The unions of the Rust generator, as text
-/

namespace Proto.Rust

set_option maxRecDepth 100000
set_option linter.unusedSimpArgs false

theorem asciiLower_eq (s : Bytes) : s.map asciiLower = Text.lower s := by
  refine List.map_congr_left fun c _ => ?_
  unfold asciiLower
  by_cases h : 0x41 ≤ c ∧ c ≤ 0x5a
  · have h' : 0x41 ≤ c.toNat ∧ c.toNat ≤ 0x5a := ⟨h.1, h.2⟩
    rw [if_pos h, if_pos h']
    apply UInt8.toNat.inj
    have := h'.2
    simp
  · have h' : ¬(0x41 ≤ c.toNat ∧ c.toNat ≤ 0x5a) := fun e => h ⟨e.1, e.2⟩
    rw [if_neg h, if_neg h']

theorem unionGenerics_eq (u : Union) : unionGenerics u = Text.unionGenerics u := by
  unfold unionGenerics Text.unionGenerics
  by_cases h : ∃ c ∈ u.cases, c.itemType.isSome = true
  · rw [if_pos h, if_pos (by simpa using h)]
  · rw [if_neg h, if_neg (by simpa using h)]

theorem unionGenerics_ne (u : Union) :
    unionGenerics u ≠ [] ↔ ∃ c ∈ u.cases, c.itemType.isSome = true := by
  rw [unionGenerics_eq]
  unfold Text.unionGenerics
  by_cases h : ∃ c ∈ u.cases, c.itemType.isSome = true
  · simp [if_pos h, h]
  · rw [if_neg h]
    exact ⟨fun e => absurd rfl e, fun e => absurd e h⟩

theorem discriminantFields_eq {s : Structure} {is : List Nat} {ns : List Name} {leaf : Option Name}
    (h : Text.Chain s is ns leaf) :
    ∃ fs : List (SField × Bool), discriminantFields s is = .ok fs ∧
      fs.map (fun f => (f.1.name, f.2)) =
        ns.map (fun n => (n, false)) ++ leaf.toList.map (fun n => (n, true)) := by
  induction h with
  | stop => exact ⟨[], rfl, rfl⟩
  | @leaf s i f h => exact ⟨[(.fixed f, true)], by simp [discriminantFields, h], rfl⟩
  | @step s r i is n leaf l ns h _ ih =>
    obtain ⟨fs, h1, h2⟩ := ih
    refine ⟨(.struct n r l, false) :: fs, ?_, ?_⟩
    · rw [discriminantFields]
      simp only [h]
      rw [h1]
      rfl
    · rw [List.map_cons, h2]
      rfl

theorem map_pairs {fs : List (SField × Bool)} {ns : List Name} {leaf : Option Name}
    (h : fs.map (fun f => (f.1.name, f.2)) =
      ns.map (fun n => (n, false)) ++ leaf.toList.map (fun n => (n, true)))
    (g : Name → Bool → Bytes) :
    fs.map (fun f => g f.1.name f.2) = ns.map (g · false) ++ leaf.toList.map (g · true) := by
  have := congrArg (List.map fun x : Name × Bool => g x.1 x.2) h
  simpa only [List.map_append, List.map_map, Function.comp_def] using this

theorem discriminantPath_eq {u : Union} {ns : List Name} {leaf : Option Name}
    (h : Text.Chain u.discriminant.root u.discriminant.indexList ns leaf) :
    discriminantPath u = .ok (Text.readPath ns leaf) := by
  obtain ⟨fs, h1, h2⟩ := discriminantFields_eq h
  unfold discriminantPath
  rw [h1, Res.bind_ok]
  rw [joinMap_ok _ _ (fun f : SField × Bool => if f.2 then b!"get_raw_" ++ Name.utf8 f.1.name ++ b!"()"
      else b!"get_" ++ Name.utf8 f.1.name ++ b!"()") _ (fun _ _ => rfl)]
  rw [map_pairs h2 (fun n (b : Bool) =>
    if b then b!"get_raw_" ++ Name.utf8 n ++ b!"()" else b!"get_" ++ Name.utf8 n ++ b!"()")]
  rfl

theorem discriminantPathMut_eq {u : Union} {ns : List Name} {leaf : Option Name}
    (h : Text.Chain u.discriminant.root u.discriminant.indexList ns leaf) :
    discriminantPathMut u = .ok (Text.writePath ns leaf) := by
  obtain ⟨fs, h1, h2⟩ := discriminantFields_eq h
  unfold discriminantPathMut
  rw [h1, Res.bind_ok]
  rw [joinMap_ok _ _ (fun f : SField × Bool => if f.2 then b!"set_raw_" ++ Name.utf8 f.1.name
      else b!"get_" ++ Name.utf8 f.1.name ++ b!"_mut()") _ (fun _ _ => rfl)]
  rw [map_pairs h2 (fun n (b : Bool) =>
    if b then b!"set_raw_" ++ Name.utf8 n else b!"get_" ++ Name.utf8 n ++ b!"_mut()")]
  have e : (fun n : Name => b!"set_raw_" ++ Name.utf8 n) =
      fun n => t!"set_raw_{Name.utf8 n}" := by funext n; simp
  simp only [if_true, Bool.false_eq_true, if_false, Text.writePath, List.append_assoc]
  try rw [e]

/-- The union template with its variables set. -/
def unionT (n g pm pa on : Bytes) : Template Fn :=
  ((((Tmpl.rustUnionT.var b!"union_name" n).var b!"generics" g).var b!"discriminant_path_mut" pm).var
    b!"discriminant_path" pa).var b!"discriminant_type" on

variable (lib : Lib) (paths : List (Name × Name)) (n g pm pa on : Bytes) (u : Union)

theorem caseDecl_eq (c : UCase) :
    (let scope := (unionT n g pm pa on).scope.var b!"name" (Name.utf8 c.name)
    match c.itemType with
    | none => unwrap (scope.render lib.run b!"decl" [b!"none"])
    | some (.struct v) =>
      unwrap ((scope.var b!"type_name" (pathOf paths v.name)).render lib.run b!"decl" [b!"struct"])
    | some (.message v) =>
      unwrap ((scope.var b!"type_name" (pathOf paths v.name)).render lib.run b!"decl" [b!"message"])) =
      .ok (Text.caseDecl paths c) := by
  simp only [Scope.render, Template.renderInternal_eq, Text.caseDecl]
  generalize c.itemType = t
  rcases t with _ | _ | _ <;> krfl

theorem declBody_eq (cases : Bytes) :
    ((unionT n g pm pa on).scope.var b!"cases" cases).render lib.run b!"" [b!"decl"] =
      .ok t!"#[derive(Copy, Clone, Debug)]
pub enum {n}{g} \{
{cases}
}
" := by
  simp only [Scope.render, Template.renderInternal_eq]
  krfl

theorem caseFromSlice_eq (c : UCase) :
    (let scope := ((unionT n g pm pa on).scope.var b!"name" (Name.utf8 c.name)).var b!"case"
      (display c.case)
    match c.itemType with
    | none => unwrap (scope.render lib.run b!"from_slice.none" [b!"case"])
    | some itemType =>
      unwrap ((scope.var b!"type_name" (pathOf paths (referencedName itemType))).render lib.run
        b!"from_slice.generics" [b!"case"])) =
      .ok (Text.caseFromSlice paths c) := by
  simp only [Scope.render, Template.renderInternal_eq, Text.caseFromSlice]
  generalize c.itemType = t
  rcases t with _ | _ | _ <;> krfl

theorem caseWriteTo_eq (c : UCase) :
    (let scope := ((unionT n g pm pa on).scope.var b!"name" (Name.utf8 c.name)).var b!"case"
      (display c.case)
    match c.itemType with
    | none => .ok []
    | some itemType =>
      unwrap ((scope.var b!"type_name" (pathOf paths (referencedName itemType))).render lib.run
        b!"write_to.generics" [b!"case"])) =
      (.ok (Text.caseWriteTo paths c) : G Bytes) := by
  simp only [Scope.render, Template.renderInternal_eq, Text.caseWriteTo]
  generalize c.itemType = t
  rcases t with _ | _ | _ <;> krfl

theorem caseSet_eq (c : UCase) :
    (let scope := ((unionT n g pm pa on).scope.var b!"name" (Name.utf8 c.name)).var b!"case"
      (display c.case)
    match c.itemType with
    | some _ => unwrap (scope.render lib.run b!"setter" [b!"ref"])
    | none => unwrap (scope.render lib.run b!"setter" [b!"none"])) =
      .ok (Text.caseSet c) := by
  simp only [Scope.render, Template.renderInternal_eq, Text.caseSet]
  generalize c.itemType = t
  rcases t with _ | _ | _ <;> krfl

theorem caseGetter_eq (c : UCase) :
    (let scope := ((unionT n g pm pa on).scope.var b!"name_lower"
      ((Name.utf8 c.name).map asciiLower)).var b!"name" (Name.utf8 c.name)
    match c.itemType with
    | some (.struct v) =>
      unwrap ((scope.var b!"type_name" (pathOf paths v.name)).render lib.run b!"getters" [b!"struct"])
    | some (.message v) =>
      unwrap ((scope.var b!"type_name" (pathOf paths v.name)).render lib.run b!"getters" [b!"message"])
    | none => unwrap (scope.render lib.run b!"getters" [b!"none"])) =
      .ok (Text.caseGetter paths c) := by
  simp only [Scope.render, Template.renderInternal_eq, Text.caseGetter, asciiLower_eq]
  generalize Text.lower c.name.utf8 = l
  generalize c.itemType = t
  rcases t with _ | _ | _ <;> krfl

theorem settersBody_eq (cases : Bytes) :
    ((unionT n g pm pa on).scope.var b!"cases" cases).render lib.run b!"" [b!"setter"] =
      .ok t!"impl{g} {n}{g} \{
    pub fn set_discriminant<T: AsMut<[u8]>>(&self, discriminant: &mut {on}<T>) \{
        let discriminant_value = match self \{
{cases}
        };
        discriminant.{pm}(discriminant_value);
    }
}
" := by
  simp only [Scope.render, Template.renderInternal_eq]
  krfl

theorem gettersBody_eq (cases : Bytes) :
    ((unionT n g pm pa on).scope.var b!"cases" cases).render lib.run b!"" [b!"getters"] =
      .ok t!"impl{g} {n}{g} \{
{cases}
}
" := by
  simp only [Scope.render, Template.renderInternal_eq]
  krfl

theorem decoderGenerics_eq (cases : Bytes) :
    (((unionT n g pm pa on).scope.var b!"cases" cases).renderToVar lib.run b!"from_slice"
      [b!"generics"] b!"fragment").bind
      (fun scope => scope.render lib.run b!"" [b!"from_slice"]) =
      (let body : Bytes := t!"    pub fn from_slice(slice: &'a [u8], discriminant: &{on}<&'a [u8]>) -> bp3d_proto::message::Result<bp3d_proto::message::Message<Self>> \{
        use bp3d_proto::message::FromSlice;
        let discriminant = discriminant.{pa};
        match discriminant \{
{cases}
            _ => Err(bp3d_proto::message::Error::InvalidUnionDiscriminant(discriminant as _))
        }
    }
"
      .ok t!"impl<'a> {n}{g} \{
{body}
}
") := by
  simp only [Scope.render, Scope.renderToVar, Template.renderInternal_eq]
  krfl

theorem decoderNone_eq (cases : Bytes) :
    (((unionT n g pm pa on).scope.var b!"cases" cases).renderToVar lib.run b!"from_slice"
      [b!"none"] b!"fragment").bind
      (fun scope => scope.render lib.run b!"" [b!"from_slice"]) =
      (let body : Bytes := t!"    pub fn from_slice(_: &'a [u8], discriminant: &{on}<&'a [u8]>) -> bp3d_proto::message::Result<bp3d_proto::message::Message<Self>> \{
        let discriminant = discriminant.{pa};
        match discriminant \{
{cases}
            _ => Err(bp3d_proto::message::Error::InvalidUnionDiscriminant(discriminant as _))
        }
    }
"
      .ok t!"impl<'a> {n}{g} \{
{body}
}
") := by
  simp only [Scope.render, Scope.renderToVar, Template.renderInternal_eq]
  krfl

theorem encoderGenerics_eq (cases : Bytes) :
    (((unionT n g pm pa on).scope.var b!"cases" cases).renderToVar lib.run b!"write_to"
      [b!"generics"] b!"fragment").bind
      (fun scope => scope.render lib.run b!"" [b!"write_to"]) =
      (let body : Bytes := t!"    pub fn write_to<W: std::io::Write>(input: &Self, discriminant: &{on}<&'a [u8]>, mut out: W) -> bp3d_proto::message::Result<()> \{
        use bp3d_proto::message::WriteTo;
        let discriminant = discriminant.{pa};
        match input \{
{cases}
            _ => ()
        };
        Ok(())
    }
"
      .ok t!"impl<'a> {n}{g} \{
{body}
}
") := by
  simp only [Scope.render, Scope.renderToVar, Template.renderInternal_eq]
  krfl

theorem encoderNone_eq :
    ((unionT n g pm pa on).scope.renderToVar lib.run b!"write_to" [b!"none"] b!"fragment").bind
      (fun scope => scope.render lib.run b!"" [b!"write_to"]) =
      (let body : Bytes := t!"    pub fn write_to<W: std::io::Write>(_: &Self, _: &{on}<&'a [u8]>, _: W) -> bp3d_proto::message::Result<()> \{
        Ok(())
    }
"
      .ok t!"impl<'a> {n}{g} \{
{body}
}
") := by
  simp only [Scope.render, Scope.renderToVar, Template.renderInternal_eq]
  krfl

theorem unwrap_bind (x : Res ε α) (f : α → Res ε β) :
    (unwrap x >>= fun a => unwrap (f a)) = unwrap (x.bind f) := by
  cases x <;> rfl

theorem unionFromSlice_eq : unionFromSlice lib paths u (unionT n g pm pa on) =
    .ok (if ∃ c ∈ u.cases, c.itemType.isSome = true then
      (let cases := Text.all (Text.caseFromSlice paths) u.cases
      let body : Bytes := t!"    pub fn from_slice(slice: &'a [u8], discriminant: &{on}<&'a [u8]>) -> bp3d_proto::message::Result<bp3d_proto::message::Message<Self>> \{
        use bp3d_proto::message::FromSlice;
        let discriminant = discriminant.{pa};
        match discriminant \{
{cases}
            _ => Err(bp3d_proto::message::Error::InvalidUnionDiscriminant(discriminant as _))
        }
    }
"
      t!"impl<'a> {n}{g} \{
{body}
}
") else
      (let cases := Text.all (Text.caseFromSlice paths) u.cases
      let body : Bytes := t!"    pub fn from_slice(_: &'a [u8], discriminant: &{on}<&'a [u8]>) -> bp3d_proto::message::Result<bp3d_proto::message::Message<Self>> \{
        let discriminant = discriminant.{pa};
        match discriminant \{
{cases}
            _ => Err(bp3d_proto::message::Error::InvalidUnionDiscriminant(discriminant as _))
        }
    }
"
      t!"impl<'a> {n}{g} \{
{body}
}
")) := by
  unfold unionFromSlice
  rw [joinMap_all _ (Text.caseFromSlice paths) u.cases
    (by exact fun c _ => caseFromSlice_eq lib paths n g pm pa on c), Res.bind_ok]
  by_cases hc : ∃ c ∈ u.cases, c.itemType.isSome = true
  · have hg := (unionGenerics_ne u).2 hc
    simp only [if_pos hg, if_pos hc]
    rw [unwrap_bind, decoderGenerics_eq, unwrap_ok]
  · have hg : ¬ unionGenerics u ≠ [] := fun x => hc ((unionGenerics_ne u).1 x)
    simp only [if_neg hg, if_neg hc]
    rw [unwrap_bind, decoderNone_eq, unwrap_ok]

theorem unionWriteTo_eq : unionWriteTo lib paths u (unionT n g pm pa on) =
    .ok (if ∃ c ∈ u.cases, c.itemType.isSome = true then
      (let cases := Text.all (Text.caseWriteTo paths) u.cases
      let body : Bytes := t!"    pub fn write_to<W: std::io::Write>(input: &Self, discriminant: &{on}<&'a [u8]>, mut out: W) -> bp3d_proto::message::Result<()> \{
        use bp3d_proto::message::WriteTo;
        let discriminant = discriminant.{pa};
        match input \{
{cases}
            _ => ()
        };
        Ok(())
    }
"
      t!"impl<'a> {n}{g} \{
{body}
}
") else
      (let body : Bytes := t!"    pub fn write_to<W: std::io::Write>(_: &Self, _: &{on}<&'a [u8]>, _: W) -> bp3d_proto::message::Result<()> \{
        Ok(())
    }
"
      t!"impl<'a> {n}{g} \{
{body}
}
")) := by
  unfold unionWriteTo
  by_cases hc : ∃ c ∈ u.cases, c.itemType.isSome = true
  · have hg := (unionGenerics_ne u).2 hc
    simp only [if_pos hg, if_pos hc]
    rw [joinMap_all _ (Text.caseWriteTo paths) u.cases
      (by exact fun c _ => caseWriteTo_eq lib paths n g pm pa on c), Res.bind_ok,
      unwrap_bind, encoderGenerics_eq, unwrap_ok]
  · have hg : ¬ unionGenerics u ≠ [] := fun x => hc ((unionGenerics_ne u).1 x)
    simp only [if_neg hg, if_neg hc]
    rw [unwrap_bind, encoderNone_eq, unwrap_ok]

theorem unionDecl_eq {u : Union} {ns : List Name} {leaf : Option Name}
    (h : Text.Chain u.discriminant.root u.discriminant.indexList ns leaf) :
    unionDecl lib paths u =
      .ok (Text.unionText paths u (Text.readPath ns leaf) (Text.writePath ns leaf)) := by
  unfold unionDecl
  rw [Tmpl.rustUnion_compile, unwrap_ok, Res.bind_ok, discriminantPathMut_eq h, Res.bind_ok,
    discriminantPath_eq h, Res.bind_ok]
  generalize Text.readPath ns leaf = pa
  generalize Text.writePath ns leaf = pm
  rw [unionGenerics_eq]
  have e : ∀ n g on : Bytes, ((((Tmpl.rustUnionT.var b!"union_name" n).var b!"generics" g).var
    b!"discriminant_path_mut" pm).var b!"discriminant_path" pa).var b!"discriminant_type" on =
      unionT n g pm pa on := fun _ _ _ => rfl
  simp only [e]
  rw [joinMap_all _ (Text.caseDecl paths) u.cases
      (by exact fun c _ => caseDecl_eq lib paths _ _ _ _ _ c),
    Res.bind_ok, declBody_eq, unwrap_ok, Res.bind_ok, unionFromSlice_eq, Res.bind_ok,
    unionWriteTo_eq, Res.bind_ok]
  unfold unionSetDiscriminant unionGetters
  rw [joinMap_all _ Text.caseSet u.cases
      (by exact fun c _ => caseSet_eq lib _ _ _ _ _ c), Res.bind_ok,
    joinMap_all _ (Text.caseGetter paths) u.cases
      (by exact fun c _ => caseGetter_eq lib paths _ _ _ _ _ c), Res.bind_ok,
    settersBody_eq, gettersBody_eq]
  simp only [unwrap_ok, Res.bind_ok]
  unfold Text.unionText
  by_cases hc : ∃ c ∈ u.cases, c.itemType.isSome = true
  · simp only [if_pos hc, List.append_assoc]
  · simp only [if_neg hc, List.append_assoc]

end Proto.Rust
