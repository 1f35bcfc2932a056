import Verif.Decl.Scan
import Verif.Props.Rust

/-! # Scanning the text of structures and enums -/

namespace Proto.Decl

open Text

theorem OneLine.append {a b : Bytes} (ha : OneLine a) (hb : OneLine b) : OneLine (a ++ b) := by
  intro c hc
  rcases List.mem_append.1 hc with h | h
  · exact ha c h
  · exact hb c h

theorem Word.append {a b : Bytes} (ha : Word a) (hb : Word b) : Word (a ++ b) := by
  intro c hc
  rcases List.mem_append.1 hc with h | h
  · exact ha c h
  · exact hb c h

theorem word_display (n : Nat) : Word (display n) := by
  induction n using Nat.strongRecOn with
  | ind n ih =>
    have digit : ∀ d < 10, Word [UInt8.ofNat (48 + d)] := by
      intro d hd c hc
      rw [List.mem_singleton.1 hc]
      rcases d with _ | _ | _ | _ | _ | _ | _ | _ | _ | _ | d
      all_goals first | decide +kernel | omega
    by_cases h : n < 10
    · rw [(C52_decimal n).1 h]
      exact digit n h
    · rw [(C52_decimal n).2 (by omega)]
      exact (ih (n / 10) (by omega)).append (digit _ (Nat.mod_lt _ (by decide)))

theorem oneLine_typeName (t : FixedTy) : OneLine (typeName t) := by cases t <;> simp [typeName, OneLine]

theorem oneLine_rawName (n : Nat) : OneLine (rawName n) := by
  unfold rawName
  repeat' split
  all_goals simp [OneLine]

theorem oneLine_suffix (e : Endian) : OneLine (suffix e) := by cases e <;> simp [suffix, OneLine]

theorem oneLine_bitCodec (e : Endian) : OneLine (bitCodec e) := by
  cases e <;> simp [bitCodec, suffix, OneLine]

theorem oneLine_byteCodec (e : Endian) : OneLine (byteCodec e) := by
  cases e <;> simp [byteCodec, suffix, OneLine]

/-- Holes that do not break the line. -/
macro "oneline" : tactic => `(tactic| first
  | with_reducible assumption
  | with_reducible exact Word.oneLine (by assumption)
  | with_reducible exact Word.oneLine (word_display _)
  | with_reducible exact oneLine_typeName _
  | with_reducible exact oneLine_rawName _
  | with_reducible exact oneLine_suffix _
  | with_reducible exact oneLine_bitCodec _
  | with_reducible exact oneLine_byteCodec _
  | with_reducible exact Sane.number (by assumption) _)

/-- One piece of a text. -/
macro "scan_step" : tactic => `(tactic| first
  | (apply chunk; focus krun)
  | krun
  | (apply chunk; focus with_reducible assumption)
  | (apply chunk; focus refine run_oneLine ?_; oneline)
  | (apply chunk; focus refine run_word ?_; with_reducible assumption)
  | apply chunk_assoc)

/-- A text, piece by piece. -/
macro "scan" : tactic => `(tactic| (apply Eq.trans; (focus (repeat scan_step)); rfl))

theorem rawGetter_types (f : FixedField) (h : Word (Name.utf8 f.name)) :
    run typeKeys (.start []) (rawGetter f) = ([], .start []) := by
  unfold typeKeys rawGetter first last
  dsimp only
  split <;> split
  all_goals scan

theorem rawGetter_constants (f : FixedField) (h : Word (Name.utf8 f.name)) :
    run constantKeys (.start []) (rawGetter f) = ([], .start []) := by
  unfold constantKeys rawGetter first last
  dsimp only
  split <;> split
  all_goals scan

theorem rawGetter_methods (f : FixedField) (h : Word (Name.utf8 f.name)) :
    run methodKeys (.start []) (rawGetter f) = ([t!"get_raw_{Name.utf8 f.name}"], .start []) := by
  unfold methodKeys rawGetter first last
  dsimp only
  split <;> split
  all_goals scan

theorem rawSetter_types (f : FixedField) (h : Word (Name.utf8 f.name)) :
    run typeKeys (.start []) (rawSetter f) = ([], .start []) := by
  unfold typeKeys rawSetter first last
  dsimp only
  split <;> split
  all_goals scan

theorem rawSetter_constants (f : FixedField) (h : Word (Name.utf8 f.name)) :
    run constantKeys (.start []) (rawSetter f) = ([], .start []) := by
  unfold constantKeys rawSetter first last
  dsimp only
  split <;> split
  all_goals scan

theorem rawSetter_methods (f : FixedField) (h : Word (Name.utf8 f.name)) :
    run methodKeys (.start []) (rawSetter f) = ([t!"set_raw_{Name.utf8 f.name}"], .start []) := by
  unfold methodKeys rawSetter first last
  dsimp only
  split <;> split
  all_goals scan

theorem viewGetter_types {lib : Lib} (hl : Sane lib) {paths : List (Name × Name)} (f : FixedField) (h : Named paths (.fixed f)) :
    run typeKeys (.start []) (viewGetter lib paths f) = ([], .start []) := by
  unfold typeKeys viewGetter
  obtain ⟨name, ty, loc, view, e⟩ := f
  obtain ⟨h, he⟩ := h
  dsimp only at h he ⊢
  cases view with
  | none => scan
  | transmute =>
    dsimp only
    split <;> scan
  | signedCast m => scan
  | enum e =>
    have := he e rfl
    scan
  | float a b c d => scan

theorem viewGetter_constants {lib : Lib} (hl : Sane lib) {paths : List (Name × Name)} (f : FixedField) (h : Named paths (.fixed f)) :
    run constantKeys (.start []) (viewGetter lib paths f) = ([], .start []) := by
  unfold constantKeys viewGetter
  obtain ⟨name, ty, loc, view, e⟩ := f
  obtain ⟨h, he⟩ := h
  dsimp only at h he ⊢
  cases view with
  | none => scan
  | transmute =>
    dsimp only
    split <;> scan
  | signedCast m => scan
  | enum e =>
    have := he e rfl
    scan
  | float a b c d => scan

theorem viewGetter_methods {lib : Lib} (hl : Sane lib) {paths : List (Name × Name)} (f : FixedField) (h : Named paths (.fixed f)) :
    run methodKeys (.start []) (viewGetter lib paths f) = ([t!"get_{Name.utf8 f.name}"], .start []) := by
  unfold methodKeys viewGetter
  obtain ⟨name, ty, loc, view, e⟩ := f
  obtain ⟨h, he⟩ := h
  dsimp only at h he ⊢
  cases view with
  | none => scan
  | transmute =>
    dsimp only
    split <;> scan
  | signedCast m => scan
  | enum e =>
    have := he e rfl
    scan
  | float a b c d => scan

theorem viewSetter_types {lib : Lib} (hl : Sane lib) {paths : List (Name × Name)} (f : FixedField) (h : Named paths (.fixed f)) :
    run typeKeys (.start []) (viewSetter lib paths f) = ([], .start []) := by
  unfold typeKeys viewSetter
  obtain ⟨name, ty, loc, view, e⟩ := f
  obtain ⟨h, he⟩ := h
  dsimp only at h he ⊢
  cases view with
  | none => scan
  | transmute =>
    dsimp only
    split <;> scan
  | signedCast m =>
    dsimp only
    split <;> scan
  | enum e =>
    have := he e rfl
    scan
  | float a b c d => scan

theorem viewSetter_constants {lib : Lib} (hl : Sane lib) {paths : List (Name × Name)} (f : FixedField) (h : Named paths (.fixed f)) :
    run constantKeys (.start []) (viewSetter lib paths f) = ([], .start []) := by
  unfold constantKeys viewSetter
  obtain ⟨name, ty, loc, view, e⟩ := f
  obtain ⟨h, he⟩ := h
  dsimp only at h he ⊢
  cases view with
  | none => scan
  | transmute =>
    dsimp only
    split <;> scan
  | signedCast m =>
    dsimp only
    split <;> scan
  | enum e =>
    have := he e rfl
    scan
  | float a b c d => scan

theorem viewSetter_methods {lib : Lib} (hl : Sane lib) {paths : List (Name × Name)} (f : FixedField) (h : Named paths (.fixed f)) :
    run methodKeys (.start []) (viewSetter lib paths f) = ([t!"set_{Name.utf8 f.name}"], .start []) := by
  unfold methodKeys viewSetter
  obtain ⟨name, ty, loc, view, e⟩ := f
  obtain ⟨h, he⟩ := h
  dsimp only at h he ⊢
  cases view with
  | none => scan
  | transmute =>
    dsimp only
    split <;> scan
  | signedCast m =>
    dsimp only
    split <;> scan
  | enum e =>
    have := he e rfl
    scan
  | float a b c d => scan

theorem fieldGetter_types {lib : Lib} (hl : Sane lib) {paths : List (Name × Name)} (f : SField) (h : Named paths f) :
    run typeKeys (.start []) (fieldGetter lib paths f) = ([], .start []) := by
  cases f with
  | fixed f =>
    exact (chunk (rawGetter_types f h.1) (viewGetter_types hl f h)).trans rfl
  | array f =>
    unfold typeKeys fieldGetter first last
    have h : Word (Name.utf8 f.name) := h
    scan
  | struct n r l =>
    unfold typeKeys fieldGetter first last
    obtain ⟨h, h'⟩ := h
    scan

theorem fieldGetter_constants {lib : Lib} (hl : Sane lib) {paths : List (Name × Name)} (f : SField) (h : Named paths f) :
    run constantKeys (.start []) (fieldGetter lib paths f) = ([], .start []) := by
  cases f with
  | fixed f =>
    exact (chunk (rawGetter_constants f h.1) (viewGetter_constants hl f h)).trans rfl
  | array f =>
    unfold constantKeys fieldGetter first last
    have h : Word (Name.utf8 f.name) := h
    scan
  | struct n r l =>
    unfold constantKeys fieldGetter first last
    obtain ⟨h, h'⟩ := h
    scan

theorem fieldGetter_methods {lib : Lib} (hl : Sane lib) {paths : List (Name × Name)} (f : SField) (h : Named paths f) :
    run methodKeys (.start []) (fieldGetter lib paths f) = (getters f, .start []) := by
  cases f with
  | fixed f =>
    exact (chunk (rawGetter_methods f h.1) (viewGetter_methods hl f h)).trans rfl
  | array f =>
    unfold methodKeys fieldGetter first last
    have h : Word (Name.utf8 f.name) := h
    scan
  | struct n r l =>
    unfold methodKeys fieldGetter first last
    obtain ⟨h, h'⟩ := h
    scan

theorem fieldSetter_types {lib : Lib} (hl : Sane lib) {paths : List (Name × Name)} (f : SField) (h : Named paths f) :
    run typeKeys (.start []) (fieldSetter lib paths f) = ([], .start []) := by
  cases f with
  | fixed f =>
    exact (chunk (rawSetter_types f h.1) (viewSetter_types hl f h)).trans rfl
  | array f =>
    unfold typeKeys fieldSetter first last
    have h : Word (Name.utf8 f.name) := h
    scan
  | struct n r l =>
    unfold typeKeys fieldSetter first last
    obtain ⟨h, h'⟩ := h
    scan

theorem fieldSetter_constants {lib : Lib} (hl : Sane lib) {paths : List (Name × Name)} (f : SField) (h : Named paths f) :
    run constantKeys (.start []) (fieldSetter lib paths f) = ([], .start []) := by
  cases f with
  | fixed f =>
    exact (chunk (rawSetter_constants f h.1) (viewSetter_constants hl f h)).trans rfl
  | array f =>
    unfold constantKeys fieldSetter first last
    have h : Word (Name.utf8 f.name) := h
    scan
  | struct n r l =>
    unfold constantKeys fieldSetter first last
    obtain ⟨h, h'⟩ := h
    scan

theorem fieldSetter_methods {lib : Lib} (hl : Sane lib) {paths : List (Name × Name)} (f : SField) (h : Named paths f) :
    run methodKeys (.start []) (fieldSetter lib paths f) = (setters f, .start []) := by
  cases f with
  | fixed f =>
    exact (chunk (rawSetter_methods f h.1) (viewSetter_methods hl f h)).trans rfl
  | array f =>
    unfold methodKeys fieldSetter first last
    have h : Word (Name.utf8 f.name) := h
    apply Eq.trans
    (focus (repeat scan_step))
    simp [setters]
  | struct n r l =>
    unfold methodKeys fieldSetter first last
    obtain ⟨h, h'⟩ := h
    apply Eq.trans
    (focus (repeat scan_step))
    simp [setters]

theorem structureHead_types {lib : Lib} (hl : Sane lib) (s : Structure) (h : Word (Name.utf8 s.name)) :
    run typeKeys (.start []) (structureHead lib s) = ([Name.utf8 s.name], .start []) := by
  have hu := hl.upper _ h
  unfold typeKeys structureHead
  scan

theorem structureHead_constants {lib : Lib} (hl : Sane lib) (s : Structure) (h : Word (Name.utf8 s.name)) :
    run constantKeys (.start []) (structureHead lib s) = ([t!"SIZE_{lib.caseMap.upper (Name.utf8 s.name)}"], .start []) := by
  have hu := hl.upper _ h
  unfold constantKeys structureHead
  scan

theorem structureHead_methods {lib : Lib} (hl : Sane lib) (s : Structure) (h : Word (Name.utf8 s.name)) :
    run methodKeys (.start []) (structureHead lib s) = ([b!"new", b!"new_on_stack", b!"to_ref", b!"to_mut"], .start []) := by
  have hu := hl.upper _ h
  unfold methodKeys structureHead
  scan

theorem structureText_types {lib : Lib} (hl : Sane lib) {paths : List (Name × Name)} (s : Structure)
    (h : Word (Name.utf8 s.name)) (hf : ∀ f ∈ s.fields, Named paths f) :
    run typeKeys (.start []) (structureText lib paths s) =
      ([Name.utf8 s.name], .start []) := by
  have h0 := structureHead_types hl s h
  have h1 := run_all (o := fun _ => []) fun f hm => fieldGetter_types hl f (hf f hm)
  have h2 := run_all (o := fun _ => []) fun f hm => fieldSetter_types hl f (hf f hm)
  unfold typeKeys at *
  unfold structureText
  apply Eq.trans
  (focus (repeat scan_step))
  simp

theorem structureText_constants {lib : Lib} (hl : Sane lib) {paths : List (Name × Name)} (s : Structure)
    (h : Word (Name.utf8 s.name)) (hf : ∀ f ∈ s.fields, Named paths f) :
    run constantKeys (.start []) (structureText lib paths s) =
      ([t!"SIZE_{lib.caseMap.upper (Name.utf8 s.name)}"], .start []) := by
  have h0 := structureHead_constants hl s h
  have h1 := run_all (o := fun _ => []) fun f hm => fieldGetter_constants hl f (hf f hm)
  have h2 := run_all (o := fun _ => []) fun f hm => fieldSetter_constants hl f (hf f hm)
  unfold constantKeys at *
  unfold structureText
  apply Eq.trans
  (focus (repeat scan_step))
  simp

theorem structureText_methods {lib : Lib} (hl : Sane lib) {paths : List (Name × Name)} (s : Structure)
    (h : Word (Name.utf8 s.name)) (hf : ∀ f ∈ s.fields, Named paths f) :
    run methodKeys (.start []) (structureText lib paths s) =
      ([b!"new", b!"new_on_stack", b!"to_ref", b!"to_mut"] ++ s.fields.flatMap getters ++ s.fields.flatMap setters, .start []) := by
  have h0 := structureHead_methods hl s h
  have h1 := run_all (o := getters) fun f hm => fieldGetter_methods hl f (hf f hm)
  have h2 := run_all (o := setters) fun f hm => fieldSetter_methods hl f (hf f hm)
  unfold methodKeys at *
  unfold structureText
  apply Eq.trans
  (focus (repeat scan_step))
  simp

theorem enumText_types (e : Enum) (h : Word (Name.utf8 e.name)) (hv : ∀ v ∈ e.variants, Word (Name.utf8 v.1)) :
    run typeKeys (.start []) (enumText e) = ([Name.utf8 e.name], .start []) := by
  have h1 : run typeKeys (.start []) (all (fun v => t!"    {Name.utf8 v.1} = {display v.2},
") e.variants) = (e.variants.flatMap fun _ => [], .start []) := by
    refine run_all fun v hm => ?_
    have := hv v hm
    unfold typeKeys
    scan
  unfold typeKeys at *
  unfold enumText
  apply Eq.trans
  (focus (repeat scan_step))
  simp

theorem enumText_constants (e : Enum) (h : Word (Name.utf8 e.name)) (hv : ∀ v ∈ e.variants, Word (Name.utf8 v.1)) :
    run constantKeys (.start []) (enumText e) = ([], .start []) := by
  have h1 : run constantKeys (.start []) (all (fun v => t!"    {Name.utf8 v.1} = {display v.2},
") e.variants) = (e.variants.flatMap fun _ => [], .start []) := by
    refine run_all fun v hm => ?_
    have := hv v hm
    unfold constantKeys
    scan
  unfold constantKeys at *
  unfold enumText
  apply Eq.trans
  (focus (repeat scan_step))
  simp

theorem enumText_variants (e : Enum) (h : Word (Name.utf8 e.name)) (hv : ∀ v ∈ e.variants, Word (Name.utf8 v.1)) :
    run variantKeys (.start []) (enumText e) = (e.variants.map fun v => Name.utf8 v.1, .start []) := by
  have h1 : run variantKeys (.start []) (all (fun v => t!"    {Name.utf8 v.1} = {display v.2},
") e.variants) = (e.variants.flatMap fun v => [Name.utf8 v.1], .start []) := by
    refine run_all fun v hm => ?_
    have := hv v hm
    unfold variantKeys
    scan
  unfold variantKeys at *
  unfold enumText
  apply Eq.trans
  (focus (repeat scan_step))
  simp [List.map_eq_flatMap]

end Proto.Decl
