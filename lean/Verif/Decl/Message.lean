import Verif.Decl.Structure

/-! # Scanning the text of messages and unions -/

namespace Proto.Decl

open Text

theorem oneLine_value (e : Endian) (t : FixedTy) : OneLine (value e t) := by
  cases e <;> cases t <;> simp [value, suffix, typeName, OneLine]

theorem oneLine_messageGenerics (m : Message) : OneLine (messageGenerics m) := by
  unfold messageGenerics
  split <;> simp [OneLine]

theorem oneLine_unionGenerics (u : Union) : OneLine (unionGenerics u) := by
  unfold unionGenerics
  split <;> simp [OneLine]

theorem run_break {kws : List Bytes} {b : Bytes} (h : OneLine b) :
    run kws .skip (b ++ [10]) = ([], .start []) := by
  rw [chunk (run_oneLine h) (t := .skip) (r := ([], .start [])) (by simp [run, step])]
  rfl

theorem word_lower {b : Bytes} (h : Word b) : Word (lower b) := by
  intro c hc
  obtain ⟨d, hd, rfl⟩ := List.mem_map.1 hc
  have := h d hd
  split
  · rename_i hr
    have e : (UInt8.ofNat (d.toNat + 0x20)).toNat = d.toNat + 0x20 := by
      rw [UInt8.toNat_ofNat']
      omega
    simp only [isWord, e, Bool.or_eq_true, Bool.and_eq_true, decide_eq_true_eq]
    omega
  · exact this

theorem word_capital {b : Bytes} (h : Word b) : Word (capital b) := by
  cases b with
  | nil => exact h
  | cons d b =>
    intro c hc
    rcases List.mem_cons.1 hc with rfl | hc
    · have := h d (by simp)
      split
      · rename_i hr
        have e : (UInt8.ofNat (d.toNat - 0x20)).toNat = d.toNat - 0x20 := by
          rw [UInt8.toNat_ofNat']
          omega
        simp only [isWord, e, Bool.or_eq_true, Bool.and_eq_true, decide_eq_true_eq]
        omega
      · exact this
    · exact h c (by simp [hc])

/-- Either the line goes on, or a new one begins. -/
def Goes (kws : List Bytes) (b : Bytes) : Prop :=
  run kws .skip b = ([], .skip) ∨ run kws .skip b = ([], .start [])

theorem goes_break {kws : List Bytes} {b t : Bytes} (h : OneLine b) (e : t = b ++ [10]) : Goes kws t := by
  right
  rw [e, run_break h]

theorem sizedList_goes (kws : List Bytes) (v i : Bytes) (hv : OneLine v) (hi : OneLine i) :
    Goes kws (sizedList v i) := by
  refine goes_break (b := t!"bp3d_proto::message::util::List::<&'a [u8], {v}, {i}>") ?_ (by simp [sizedList])
  refine OneLine.append ?_ (hv.append (OneLine.append ?_ (hi.append ?_))) <;> simp [OneLine]

theorem unsizedList_goes (kws : List Bytes) (v i : Bytes) (hv : OneLine v) (hi : OneLine i) :
    Goes kws (unsizedList v i) := by
  refine goes_break (b := t!"bp3d_proto::message::util::list::Unsized::<{v}, {i}>") ?_ (by simp [unsizedList])
  refine OneLine.append ?_ (hv.append (OneLine.append ?_ (hi.append ?_))) <;> simp [OneLine]

theorem readList_goes (kws : List Bytes) (emb : Bool) (v i : Bytes) (hv : OneLine v) (hi : OneLine i) :
    Goes kws (readList emb v i) := by
  cases emb
  · exact unsizedList_goes kws v i hv hi
  · exact sizedList_goes kws v i hv hi

theorem inlineType_goes (kws : List Bytes) (paths : List (Name × Name)) {sized : Bytes → Bytes → Bytes}
    (hs : ∀ v i, OneLine v → OneLine i → Goes kws (sized v i)) (f : MField) (h : MNamed paths f) :
    Goes kws (inlineType paths sized f.endian f.ty) := by
  obtain ⟨h1, h2⟩ := h
  cases e : f.ty with
  | fixed t =>
    left
    refine run_oneLine ?_
    cases f.endian <;> cases t <;> simp [inlineType, suffix, typeName, OneLine]
  | ref r =>
    cases r <;> simp only [e] at h2 <;> exact .inl (run_oneLine h2)
  | nullTerminatedString => exact .inl (run_oneLine (by simp [inlineType, OneLine]))
  | varcharString t =>
    refine goes_break (b := t!"bp3d_proto::message::util::VarcharString::<{value f.endian t}>") ?_ (by
      simp [inlineType])
    refine OneLine.append ?_ ((oneLine_value _ _).append ?_) <;> simp [OneLine]
  | array t s =>
    simp only [e] at h2
    refine goes_break (b := t!"bp3d_proto::message::util::Array::<&'a [u8], {value f.endian t}, {pathOf paths s.name}<&'a [u8]>>") ?_ (by
      simp [inlineType])
    refine OneLine.append ?_ ((oneLine_value _ _).append (OneLine.append ?_ (h2.append ?_))) <;>
      simp [OneLine]
  | union u on l =>
    simp only [e] at h2
    exact .inl (run_oneLine h2.1)
  | list t m =>
    simp only [e] at h2
    exact hs _ _ (oneLine_value _ _) h2
  | payload => exact .inl (run_oneLine (by simp [inlineType, OneLine]))

theorem declType_goes (kws : List Bytes) (paths : List (Name × Name)) (f : MField) (h : MNamed paths f) :
    Goes kws (declType paths f.endian f.ty) := by
  obtain ⟨h1, h2⟩ := h
  cases e : f.ty with
  | fixed t => exact .inl (run_oneLine (oneLine_typeName t))
  | ref r =>
    cases r <;> simp only [e] at h2 <;> exact .inl (run_oneLine (h2.append (by simp [OneLine])))
  | nullTerminatedString => exact .inl (run_oneLine (by simp [declType, OneLine]))
  | varcharString t => exact .inl (run_oneLine (by simp [declType, OneLine]))
  | array t s =>
    simp only [e] at h2
    refine goes_break (b := t!"bp3d_proto::message::util::Array::<&'a [u8], {value f.endian t}, {pathOf paths s.name}<&'a [u8]>>") ?_ (by
      simp [declType])
    refine OneLine.append ?_ ((oneLine_value _ _).append (OneLine.append ?_ (h2.append ?_))) <;>
      simp [OneLine]
  | union u on l =>
    simp only [e] at h2
    exact .inl (run_oneLine (h2.1.append (by simp [OneLine])))
  | list t m =>
    simp only [e] at h2
    refine goes_break (b := t!"bp3d_proto::message::util::List::<&'a [u8], {value f.endian t}, {pathOf paths m.name}<'a>>") ?_ (by
      simp [declType])
    refine OneLine.append ?_ ((oneLine_value _ _).append (OneLine.append ?_ (h2.append ?_))) <;>
      simp [OneLine]
  | payload => exact .inl (run_oneLine (by simp [declType, OneLine]))

theorem codecType_types (paths : List (Name × Name)) {sized : Bytes → Bytes → Bytes}
    (hs : ∀ v i, OneLine v → OneLine i → Goes typeKeys (sized v i)) (f : MField) (h : MNamed paths f) :
    Goes typeKeys (codecType paths sized f) := by
  have hi := inlineType_goes typeKeys paths hs f h
  clear hs
  unfold codecType
  split
  · unfold typeKeys at *
    rcases hi with hi | hi <;> left <;> scan
  · exact hi

theorem codecType_constants (paths : List (Name × Name)) {sized : Bytes → Bytes → Bytes}
    (hs : ∀ v i, OneLine v → OneLine i → Goes constantKeys (sized v i)) (f : MField) (h : MNamed paths f) :
    Goes constantKeys (codecType paths sized f) := by
  have hi := inlineType_goes constantKeys paths hs f h
  clear hs
  unfold codecType
  split
  · unfold constantKeys at *
    rcases hi with hi | hi <;> left <;> scan
  · exact hi

theorem codecType_fields (paths : List (Name × Name)) {sized : Bytes → Bytes → Bytes}
    (hs : ∀ v i, OneLine v → OneLine i → Goes fieldKeys (sized v i)) (f : MField) (h : MNamed paths f) :
    Goes fieldKeys (codecType paths sized f) := by
  have hi := inlineType_goes fieldKeys paths hs f h
  clear hs
  unfold codecType
  split
  · unfold fieldKeys at *
    rcases hi with hi | hi <;> left <;> scan
  · exact hi

theorem fieldDecl_types (paths : List (Name × Name)) (f : MField) (h : MNamed paths f) :
    run typeKeys (.start []) (fieldDecl paths f) = ([], .start []) := by
  have hi := declType_goes typeKeys paths f h
  have hn := h.1
  unfold fieldDecl
  dsimp only
  split
  all_goals
    unfold typeKeys at *
    rcases hi with hi | hi <;> scan

theorem fieldDecl_constants (paths : List (Name × Name)) (f : MField) (h : MNamed paths f) :
    run constantKeys (.start []) (fieldDecl paths f) = ([], .start []) := by
  have hi := declType_goes constantKeys paths f h
  have hn := h.1
  unfold fieldDecl
  dsimp only
  split
  all_goals
    unfold constantKeys at *
    rcases hi with hi | hi <;> scan

theorem fieldDecl_fields (paths : List (Name × Name)) (f : MField) (h : MNamed paths f) :
    run fieldKeys (.start []) (fieldDecl paths f) = ([Name.utf8 f.name], .start []) := by
  have hi := declType_goes fieldKeys paths f h
  have hn := h.1
  unfold fieldDecl
  dsimp only
  split
  all_goals
    unfold fieldKeys at *
    rcases hi with hi | hi <;> scan

theorem aliasDecl_types (paths : List (Name × Name)) (m : Message) (hm : Word (Name.utf8 m.name)) (f : MField)
    (h : MNamed paths f) : run typeKeys (.start []) (aliasDecl paths m f) = (aliases m f, .start []) := by
  obtain ⟨h1, h2⟩ := h
  have hc := word_capital h1
  have hv := fun t => oneLine_value f.endian t
  unfold aliasDecl aliases typeKeys
  cases e : f.ty with
  | array t s =>
    simp only [e] at h2
    have := hv t
    scan
  | list t s =>
    simp only [e] at h2
    have := hv t
    scan
  | _ => simp [run, aliased]

theorem aliasDecl_constants (paths : List (Name × Name)) (m : Message) (hm : Word (Name.utf8 m.name)) (f : MField)
    (h : MNamed paths f) : run constantKeys (.start []) (aliasDecl paths m f) = ([], .start []) := by
  obtain ⟨h1, h2⟩ := h
  have hc := word_capital h1
  have hv := fun t => oneLine_value f.endian t
  unfold aliasDecl constantKeys
  cases e : f.ty with
  | array t s =>
    simp only [e] at h2
    have := hv t
    scan
  | list t s =>
    simp only [e] at h2
    have := hv t
    scan
  | _ => simp [run]

theorem aliasDecl_fields (paths : List (Name × Name)) (m : Message) (hm : Word (Name.utf8 m.name)) (f : MField)
    (h : MNamed paths f) : run fieldKeys (.start []) (aliasDecl paths m f) = ([], .start []) := by
  obtain ⟨h1, h2⟩ := h
  have hc := word_capital h1
  have hv := fun t => oneLine_value f.endian t
  unfold aliasDecl fieldKeys
  cases e : f.ty with
  | array t s =>
    simp only [e] at h2
    have := hv t
    scan
  | list t s =>
    simp only [e] at h2
    have := hv t
    scan
  | _ => simp [run]

theorem messageText_types (paths : List (Name × Name)) (m : Message) (hm : Word (Name.utf8 m.name))
    (hf : ∀ f ∈ m.fields, MNamed paths f) :
    run typeKeys (.start []) (messageText paths m) = (Name.utf8 m.name :: m.fields.flatMap (aliases m), .start []) := by
  have h1 := run_all (o := fun _ => []) fun f h => fieldDecl_types paths f (hf f h)
  have h2 := run_all (o := aliases m) fun f h => aliasDecl_types paths m hm f (hf f h)
  unfold messageText messageGenerics typeKeys at *
  split
  all_goals
    apply Eq.trans
    (focus (repeat scan_step))
    simp

theorem messageText_constants (paths : List (Name × Name)) (m : Message) (hm : Word (Name.utf8 m.name))
    (hf : ∀ f ∈ m.fields, MNamed paths f) :
    run constantKeys (.start []) (messageText paths m) = ([], .start []) := by
  have h1 := run_all (o := fun _ => []) fun f h => fieldDecl_constants paths f (hf f h)
  have h2 := run_all (o := fun _ => []) fun f h => aliasDecl_constants paths m hm f (hf f h)
  unfold messageText messageGenerics constantKeys at *
  split
  all_goals
    apply Eq.trans
    (focus (repeat scan_step))
    simp

theorem messageText_fields (paths : List (Name × Name)) (m : Message) (hm : Word (Name.utf8 m.name))
    (hf : ∀ f ∈ m.fields, MNamed paths f) :
    run fieldKeys (.start []) (messageText paths m) = (m.fields.map fun f => Name.utf8 f.name, .start []) := by
  have h1 := run_all (o := fun f => [Name.utf8 f.name]) fun f h => fieldDecl_fields paths f (hf f h)
  have h2 := run_all (o := fun _ => []) fun f h => aliasDecl_fields paths m hm f (hf f h)
  unfold messageText messageGenerics fieldKeys at *
  split
  all_goals
    apply Eq.trans
    (focus (repeat scan_step))
    simp [List.map_eq_flatMap]

theorem fromSliceText_types (paths : List (Name × Name)) (emb : Bool) (m : Message) (hm : Word (Name.utf8 m.name))
    (hf : ∀ f ∈ m.fields, MNamed paths f) :
    run typeKeys (.start []) (fromSliceText paths emb m) = ([], .start []) := by
  have h1 : run typeKeys (.start []) (all (fieldFromSlice paths emb) m.fields) =
      (m.fields.flatMap fun _ => [], .start []) := by
    refine run_all fun f h => ?_
    have hn := hf f h
    have ht := codecType_types paths (readList_goes typeKeys emb) f hn
    obtain ⟨h1, h2⟩ := hn
    unfold fieldFromSlice
    dsimp only
    split
    · rename_i e
      simp only [e] at h2
      obtain ⟨_, h3⟩ := h2
      unfold typeKeys at *
      rcases ht with ht | ht <;> scan
    · unfold typeKeys at *
      rcases ht with ht | ht <;> scan
  have h2 : run typeKeys (.start []) (all fieldName m.fields) =
      (m.fields.flatMap fun _ => [], .start []) := by
    refine run_all fun f h => ?_
    have := (hf f h).1
    unfold fieldName typeKeys
    scan
  have := oneLine_messageGenerics m
  unfold fromSliceText typeKeys at *
  apply Eq.trans
  (focus (repeat scan_step))
  simp

theorem writeText_types (paths : List (Name × Name)) (m : Message) (hm : Word (Name.utf8 m.name))
    (hf : ∀ f ∈ m.fields, MNamed paths f) :
    run typeKeys (.start []) (writeText paths m) = ([], .start []) := by
  have h1 : run typeKeys (.start []) (all (fieldWrite paths) m.fields) =
      (m.fields.flatMap fun _ => [], .start []) := by
    refine run_all fun f h => ?_
    have hn := hf f h
    have ht := codecType_types paths (sizedList_goes typeKeys) f hn
    obtain ⟨h1, h2⟩ := hn
    unfold fieldWrite
    dsimp only
    split
    · rename_i e
      simp only [e] at h2
      obtain ⟨_, h3⟩ := h2
      unfold typeKeys at *
      rcases ht with ht | ht <;> scan
    · unfold typeKeys at *
      rcases ht with ht | ht <;> scan
  have := oneLine_messageGenerics m
  unfold writeText typeKeys at *
  dsimp only
  apply Eq.trans
  (focus (repeat scan_step))
  simp

theorem fromSliceText_constants (paths : List (Name × Name)) (emb : Bool) (m : Message) (hm : Word (Name.utf8 m.name))
    (hf : ∀ f ∈ m.fields, MNamed paths f) :
    run constantKeys (.start []) (fromSliceText paths emb m) = ([], .start []) := by
  have h1 : run constantKeys (.start []) (all (fieldFromSlice paths emb) m.fields) =
      (m.fields.flatMap fun _ => [], .start []) := by
    refine run_all fun f h => ?_
    have hn := hf f h
    have ht := codecType_constants paths (readList_goes constantKeys emb) f hn
    obtain ⟨h1, h2⟩ := hn
    unfold fieldFromSlice
    dsimp only
    split
    · rename_i e
      simp only [e] at h2
      obtain ⟨_, h3⟩ := h2
      unfold constantKeys at *
      rcases ht with ht | ht <;> scan
    · unfold constantKeys at *
      rcases ht with ht | ht <;> scan
  have h2 : run constantKeys (.start []) (all fieldName m.fields) =
      (m.fields.flatMap fun _ => [], .start []) := by
    refine run_all fun f h => ?_
    have := (hf f h).1
    unfold fieldName constantKeys
    scan
  have := oneLine_messageGenerics m
  unfold fromSliceText constantKeys at *
  apply Eq.trans
  (focus (repeat scan_step))
  simp

theorem writeText_constants (paths : List (Name × Name)) (m : Message) (hm : Word (Name.utf8 m.name))
    (hf : ∀ f ∈ m.fields, MNamed paths f) :
    run constantKeys (.start []) (writeText paths m) = ([], .start []) := by
  have h1 : run constantKeys (.start []) (all (fieldWrite paths) m.fields) =
      (m.fields.flatMap fun _ => [], .start []) := by
    refine run_all fun f h => ?_
    have hn := hf f h
    have ht := codecType_constants paths (sizedList_goes constantKeys) f hn
    obtain ⟨h1, h2⟩ := hn
    unfold fieldWrite
    dsimp only
    split
    · rename_i e
      simp only [e] at h2
      obtain ⟨_, h3⟩ := h2
      unfold constantKeys at *
      rcases ht with ht | ht <;> scan
    · unfold constantKeys at *
      rcases ht with ht | ht <;> scan
  have := oneLine_messageGenerics m
  unfold writeText constantKeys at *
  dsimp only
  apply Eq.trans
  (focus (repeat scan_step))
  simp

theorem offsetsText_types (paths : List (Name × Name)) (emb : Bool) (m : Message) (hm : Word (Name.utf8 m.name))
    (hf : ∀ f ∈ m.fields, MNamed paths f) :
    run typeKeys (.start []) (offsetsText paths emb m) = ([t!"{Name.utf8 m.name}Offsets"], .start []) := by
  have h1 : run typeKeys (.start []) (all (fieldOffsets paths emb) m.fields) =
      (m.fields.flatMap fun _ => [], .start []) := by
    refine run_all fun f h => ?_
    have hn := hf f h
    have ht := codecType_types paths (readList_goes typeKeys emb) f hn
    obtain ⟨h1, h2⟩ := hn
    unfold fieldOffsets
    dsimp only
    split
    · rename_i e
      simp only [e] at h2
      obtain ⟨_, h3⟩ := h2
      unfold typeKeys at *
      rcases ht with ht | ht <;> scan
    all_goals
      unfold typeKeys at *
      rcases ht with ht | ht <;> scan
  have h2 : run typeKeys (.start []) (all fieldName m.fields) =
      (m.fields.flatMap fun _ => [], .start []) := by
    refine run_all fun f h => ?_
    have := (hf f h).1
    unfold fieldName typeKeys
    scan
  have h3 : run typeKeys (.start []) (all (offsetDecl paths) m.fields) =
      (m.fields.flatMap (fun _ => []), .start []) := by
    refine run_all fun f h => ?_
    obtain ⟨h1, h2⟩ := hf f h
    unfold offsetDecl typeKeys
    dsimp only
    split
    · rename_i e
      simp only [e] at h2
      split
      all_goals
        apply Eq.trans
        (focus (repeat scan_step))
        simp
    · rename_i hne
      apply Eq.trans
      (focus (repeat scan_step))
      rfl
  have := oneLine_messageGenerics m
  unfold offsetsText typeKeys at *
  apply Eq.trans
  (focus (repeat scan_step))
  simp

theorem offsetsText_constants (paths : List (Name × Name)) (emb : Bool) (m : Message) (hm : Word (Name.utf8 m.name))
    (hf : ∀ f ∈ m.fields, MNamed paths f) :
    run constantKeys (.start []) (offsetsText paths emb m) = ([], .start []) := by
  have h1 : run constantKeys (.start []) (all (fieldOffsets paths emb) m.fields) =
      (m.fields.flatMap fun _ => [], .start []) := by
    refine run_all fun f h => ?_
    have hn := hf f h
    have ht := codecType_constants paths (readList_goes constantKeys emb) f hn
    obtain ⟨h1, h2⟩ := hn
    unfold fieldOffsets
    dsimp only
    split
    · rename_i e
      simp only [e] at h2
      obtain ⟨_, h3⟩ := h2
      unfold constantKeys at *
      rcases ht with ht | ht <;> scan
    all_goals
      unfold constantKeys at *
      rcases ht with ht | ht <;> scan
  have h2 : run constantKeys (.start []) (all fieldName m.fields) =
      (m.fields.flatMap fun _ => [], .start []) := by
    refine run_all fun f h => ?_
    have := (hf f h).1
    unfold fieldName constantKeys
    scan
  have h3 : run constantKeys (.start []) (all (offsetDecl paths) m.fields) =
      (m.fields.flatMap (fun _ => []), .start []) := by
    refine run_all fun f h => ?_
    obtain ⟨h1, h2⟩ := hf f h
    unfold offsetDecl constantKeys
    dsimp only
    split
    · rename_i e
      simp only [e] at h2
      split
      all_goals
        apply Eq.trans
        (focus (repeat scan_step))
        simp
    · rename_i hne
      apply Eq.trans
      (focus (repeat scan_step))
      rfl
  have := oneLine_messageGenerics m
  unfold offsetsText constantKeys at *
  apply Eq.trans
  (focus (repeat scan_step))
  simp

theorem offsetsText_fields (paths : List (Name × Name)) (emb : Bool) (m : Message) (hm : Word (Name.utf8 m.name))
    (hf : ∀ f ∈ m.fields, MNamed paths f) :
    run fieldKeys (.start []) (offsetsText paths emb m) = (m.fields.flatMap offsetNames, .start []) := by
  have h1 : run fieldKeys (.start []) (all (fieldOffsets paths emb) m.fields) =
      (m.fields.flatMap fun _ => [], .start []) := by
    refine run_all fun f h => ?_
    have hn := hf f h
    have ht := codecType_fields paths (readList_goes fieldKeys emb) f hn
    obtain ⟨h1, h2⟩ := hn
    unfold fieldOffsets
    dsimp only
    split
    · rename_i e
      simp only [e] at h2
      obtain ⟨_, h3⟩ := h2
      unfold fieldKeys at *
      rcases ht with ht | ht <;> scan
    all_goals
      unfold fieldKeys at *
      rcases ht with ht | ht <;> scan
  have h2 : run fieldKeys (.start []) (all fieldName m.fields) =
      (m.fields.flatMap fun _ => [], .start []) := by
    refine run_all fun f h => ?_
    have := (hf f h).1
    unfold fieldName fieldKeys
    scan
  have h3 : run fieldKeys (.start []) (all (offsetDecl paths) m.fields) =
      (m.fields.flatMap (offsetNames), .start []) := by
    refine run_all fun f h => ?_
    obtain ⟨h1, h2⟩ := hf f h
    unfold offsetDecl offsetNames fieldKeys
    dsimp only
    split
    · rename_i e
      simp only [e] at h2
      split
      all_goals
        apply Eq.trans
        (focus (repeat scan_step))
        simp [e]
    · rename_i hne
      apply Eq.trans
      (focus (repeat scan_step))
      split
      · rename_i e
        exact absurd e (hne _)
      · rfl
  have := oneLine_messageGenerics m
  unfold offsetsText fieldKeys at *
  apply Eq.trans
  (focus (repeat scan_step))
  simp

end Proto.Decl
