import Verif.Spec.Template
import Verif.Runtime.MessageLemmas
import Mathlib.Data.List.Forall2

/-!
# Lemmas about the template engine
-/

namespace Proto

open Tpl

theorem IsUtf8.append {a b : Bytes} (ha : IsUtf8 a) (hb : IsUtf8 b) : IsUtf8 (a ++ b) := by
  obtain ⟨x, rfl⟩ := ha
  obtain ⟨y, rfl⟩ := hb
  exact ⟨x ++ y, by simp⟩

theorem IsUtf8.nil : IsUtf8 [] := ⟨[], rfl⟩

namespace Tpl

theorem utf8_lb : utf8 "{" = [0x7b] := by decide +kernel
theorem utf8_rb : utf8 "}" = [0x7d] := by decide +kernel
theorem utf8_lb2 : utf8 "{{" = [0x7b, 0x7b] := by decide +kernel
theorem utf8_rb2 : utf8 "}}" = [0x7d, 0x7d] := by decide +kernel
theorem utf8_colon : utf8 ":" = [0x3a] := by decide +kernel
theorem utf8_dot : utf8 "." = [0x2e] := by decide +kernel
theorem utf8_push : utf8 "#fragment push " = pushPrefix := by decide +kernel
theorem utf8_pop : utf8 "#fragment pop" = popPrefix := by decide +kernel

theorem utf8_isUtf8 (s : String) : IsUtf8 (utf8 s) := ⟨_, rfl⟩

theorem isUtf8_lb : IsUtf8 [0x7b] := utf8_lb ▸ utf8_isUtf8 _
theorem isUtf8_rb : IsUtf8 [0x7d] := utf8_rb ▸ utf8_isUtf8 _
theorem isUtf8_colon : IsUtf8 [0x3a] := utf8_colon ▸ utf8_isUtf8 _

theorem dotted_eq (names : List Bytes) : joinDots names = dotted names := by
  unfold joinDots
  induction names with
  | nil => rfl
  | cons n ns ih =>
    cases ns with
    | nil => simp [dotted, List.intercalate, List.intersperse]
    | cons m ms =>
      rw [dotted, ← ih, utf8_dot]
      simp [List.intercalate, List.intersperse]
      exact fun h => by simp at h

theorem concat_append (a b : List (Res TError Bytes)) :
    concat (a ++ b) = (do let x ← concat a; let y ← concat b; .ok (x ++ y)) := by
  induction a with
  | nil => simp [concat]; cases concat b <;> rfl
  | cons x a ih =>
    cases x with
    | ok x =>
      simp only [List.cons_append, concat, ih]
      cases concat a <;> simp
      cases concat b <;> simp
    | err e => rfl
    | panic => rfl

theorem concat_cons (a : Res TError Bytes) (b : List (Res TError Bytes)) :
    concat (a :: b) = (do let x ← a; let y ← concat b; .ok (x ++ y)) := by
  cases a with
  | ok x => simp only [concat]; cases concat b <;> rfl
  | err e => rfl
  | panic => rfl

end Tpl

open Template in
theorem renderComponents_append (run : φ → Bytes → Res TError Bytes) (vars : Vars)
    (a b : List (Component φ)) :
    renderComponents run vars (a ++ b) =
      (do let x ← renderComponents run vars a; let y ← renderComponents run vars b; .ok (x ++ y)) := by
  induction a with
  | nil => simp [renderComponents]; cases renderComponents run vars b <;> rfl
  | cons c a ih =>
    simp only [List.cons_append, renderComponents, ih]
    cases renderComponent run vars c <;> simp

theorem popConstant_ok {text : Bytes} (h : IsUtf8 text) :
    (popConstant text : Res TError (List (Component φ))) =
      .ok (if text = [] then [] else [.constant text]) := by
  unfold popConstant popToken
  split <;> simp_all [(validUtf8_iff text).mpr h]

theorem popVariable_ok (fm : FunctionMap φ) {text : Bytes} (h : IsUtf8 text) (hne : text ≠ []) :
    popVariable fm text = (do let c ← Component.parseVariable fm text; .ok [c]) := by
  unfold popVariable popToken
  simp [hne, (validUtf8_iff text).mpr h]

theorem render_constant (run : φ → Bytes → Res TError Bytes) (vars : Vars) (text : Bytes) :
    Template.renderComponents run vars (if text = [] then [] else [.constant text]) = .ok text := by
  split
  · simp_all [Template.renderComponents]
  · simp [Template.renderComponents, Template.renderComponent]

theorem splitAtByte_none {c : UInt8} {v : Bytes} (h : c ∉ v) : splitAtByte c v = none := by
  induction v with
  | nil => rfl
  | cons b bs ih =>
    simp only [List.mem_cons, not_or] at h
    simp [splitAtByte, ih h.2, Ne.symm h.1]

theorem splitAtByte_some {c : UInt8} {v w : Bytes} (h : c ∉ v) :
    splitAtByte c (v ++ c :: w) = some (v, w) := by
  induction v with
  | nil => simp [splitAtByte]
  | cons b bs ih =>
    simp only [List.mem_cons, not_or] at h
    simp [splitAtByte, ih h.2, Ne.symm h.1]

theorem tokenise_plain (fm : FunctionMap φ) {t : Bytes} (h : ∀ c ∈ t, c ≠ 0x7b ∧ c ≠ 0x7d)
    (acc rest : Bytes) : tokenise fm acc (t ++ rest) = tokenise fm (acc ++ t) rest := by
  induction t generalizing acc with
  | nil => simp
  | cons c t ih =>
    have hc := h c (by simp)
    rw [List.cons_append, tokenise.eq_def]; dsimp only; rw [if_neg hc.1, if_neg hc.2, ih (fun c hc => h c (by simp [hc]))]
    simp

theorem tokenise_lb2 (fm : FunctionMap φ) (acc rest : Bytes) :
    tokenise fm acc (0x7b :: 0x7b :: rest) =
      (do let x ← popConstant (acc ++ [0x7b]); let y ← tokenise fm [] rest; .ok (x ++ y)) := by
  rw [tokenise]; simp

theorem tokenise_rb2 (fm : FunctionMap φ) (acc rest : Bytes) :
    tokenise fm acc (0x7d :: 0x7d :: rest) =
      (do let x ← popConstant (acc ++ [0x7d]); let y ← tokenise fm [] rest; .ok (x ++ y)) := by
  rw [tokenise]; simp

theorem tokenise_lb (fm : FunctionMap φ) (acc : Bytes) {rest : Bytes} (h : rest.head? ≠ some 0x7b) :
    tokenise fm acc (0x7b :: rest) =
      (do let x ← popConstant acc; let y ← tokenise fm [] rest; .ok (x ++ y)) := by
  rw [tokenise.eq_def]
  cases rest with
  | nil => simp
  | cons d rest => simp at h; simp [h]

theorem tokenise_rb (fm : FunctionMap φ) (acc : Bytes) {rest : Bytes} (h : rest.head? ≠ some 0x7d) :
    tokenise fm acc (0x7d :: rest) =
      (do let x ← popVariable fm acc; let y ← tokenise fm [] rest; .ok (x ++ y)) := by
  rw [tokenise.eq_def]
  cases rest with
  | nil => simp
  | cons d rest => simp at h; simp [h]

/-- A reference. -/
theorem tokenise_ref (fm : FunctionMap φ) (acc : Bytes) {body rest : Bytes} (ha : IsUtf8 acc)
    (hb : ∀ c ∈ body, c ≠ 0x7b ∧ c ≠ 0x7d) (hu : IsUtf8 body) (hne : body ≠ [])
    (h : rest.head? ≠ some 0x7d) :
    tokenise fm acc (0x7b :: (body ++ 0x7d :: rest)) =
      (do let c ← Component.parseVariable fm body
          let y ← tokenise fm [] rest
          .ok ((if acc = [] then [] else [.constant acc]) ++ c :: y)) := by
  rw [tokenise_lb, popConstant_ok ha, tokenise_plain fm hb, List.nil_append, tokenise_rb _ _ h,
    popVariable_ok _ hu hne]
  · cases Component.parseVariable fm body <;> simp
  · cases body with
    | nil => simp at hne
    | cons c body => simpa using (hb c (by simp)).1

theorem head_of_segs (fm : FunctionMap φ) {segs : List Seg} (hl : ∀ s ∈ segs, s.Legal fm)
    (h : ∀ rest, segs ≠ .rbrace :: rest) : (segs.flatMap Seg.source).head? ≠ some 0x7d := by
  cases segs with
  | nil => simp
  | cons s segs =>
    have hs := hl s (by simp)
    match s with
    | .text [] => exact absurd rfl hs.1
    | .text (c :: t) => simpa [Seg.source] using (hs.2.1 c (by simp)).2.1
    | .lbrace => simp [Seg.source, utf8_lb2]
    | .rbrace => exact absurd rfl (h segs)
    | .ref n none => simp [Seg.source, utf8_lb]
    | .ref n (some f) => simp [Seg.source, utf8_lb]

theorem Tpl.NoClash.tail {s : Seg} {segs : List Seg} (h : NoClash (s :: segs)) : NoClash segs := by
  unfold NoClash at h
  split at h
  · exact h.elim
  · next hh => cases hh; exact h
  · next hh => cases hh

theorem Tpl.NoClash.head {n : Bytes} {f : Option Bytes} {segs : List Seg}
    (h : NoClash (.ref n f :: segs)) : ∀ rest, segs ≠ .rbrace :: rest := by
  rintro rest rfl
  exact h

/-- A legal line is tokenised, and its components render as its pieces. -/
theorem tokenise_segs (fm : FunctionMap φ) {segs : List Seg} (hl : ∀ s ∈ segs, s.Legal fm)
    (hn : NoClash segs) (acc : Bytes) (ha : IsUtf8 acc) :
    ∃ comps, tokenise fm acc (segs.flatMap Seg.source) = .ok comps ∧
      ∀ run vars, Template.renderComponents run vars comps =
        (do let y ← concat (segs.map (Seg.value fm run vars)); .ok (acc ++ y)) := by
  induction segs generalizing acc with
  | nil =>
    refine ⟨_, by simp [tokenise, popConstant_ok ha]; rfl, fun run vars => ?_⟩
    rw [render_constant]; simp [concat]
  | cons s segs ih =>
    have hs := hl s (by simp)
    have ih := ih (fun s hs => hl s (by simp [hs])) hn.tail
    rw [List.flatMap_cons]
    match s with
    | .text t =>
      obtain ⟨h1, h2, h3⟩ := hs
      obtain ⟨comps, h4, h5⟩ := ih (acc ++ t) (ha.append h3)
      refine ⟨comps, ?_, fun run vars => ?_⟩
      · rw [show (Seg.text t).source = t from rfl,
          tokenise_plain fm (fun c hc => ⟨(h2 c hc).1, (h2 c hc).2.1⟩), h4]
      · rw [h5, List.map_cons, concat_cons]
        simp only [Seg.value, Res.bind_ok]
        cases concat (segs.map (Seg.value fm run vars)) <;> simp
    | .lbrace =>
      obtain ⟨comps, h4, h5⟩ := ih [] .nil
      refine ⟨[.constant (acc ++ [0x7b])] ++ comps, ?_, fun run vars => ?_⟩
      · rw [show (Seg.lbrace).source = [0x7b, 0x7b] from utf8_lb2, List.cons_append,
          List.cons_append, List.nil_append, tokenise_lb2,
          popConstant_ok (ha.append isUtf8_lb), h4]
        simp
      · rw [renderComponents_append, h5, List.map_cons, concat_cons]
        simp only [Seg.value, Res.bind_ok, Template.renderComponents, Template.renderComponent, utf8_lb]
        cases concat (segs.map (Seg.value fm run vars)) <;> simp
    | .rbrace =>
      obtain ⟨comps, h4, h5⟩ := ih [] .nil
      refine ⟨[.constant (acc ++ [0x7d])] ++ comps, ?_, fun run vars => ?_⟩
      · rw [show (Seg.rbrace).source = [0x7d, 0x7d] from utf8_rb2, List.cons_append,
          List.cons_append, List.nil_append, tokenise_rb2,
          popConstant_ok (ha.append isUtf8_rb), h4]
        simp
      · rw [renderComponents_append, h5, List.map_cons, concat_cons]
        simp only [Seg.value, Res.bind_ok, Template.renderComponents, Template.renderComponent, utf8_rb]
        cases concat (segs.map (Seg.value fm run vars)) <;> simp
    | .ref n none =>
      obtain ⟨h1, h2, h3, h6⟩ := hs
      obtain ⟨comps, h4, h5⟩ := ih [] .nil
      have hh := head_of_segs fm (fun s hs => hl s (by simp [hs])) hn.head
      refine ⟨(if acc = [] then [] else [.constant acc]) ++ .variable n none :: comps, ?_,
        fun run vars => ?_⟩
      · rw [show (Seg.ref n none).source ++ segs.flatMap Seg.source =
            0x7b :: (n ++ 0x7d :: segs.flatMap Seg.source) by simp [Seg.source, utf8_lb, utf8_rb],
          tokenise_ref fm acc ha (fun c hc => ⟨(h2 c hc).1, (h2 c hc).2.1⟩) h3 h1 hh, h4]
        simp [Component.parseVariable, splitAtByte_none h6]
      · rw [renderComponents_append, render_constant, List.map_cons, concat_cons]
        simp only [Template.renderComponents, Template.renderComponent, h5, Seg.value, Res.bind_ok]
        cases List.lookup n vars <;> simp
    | .ref n (some f) =>
      obtain ⟨h2, h3, h6, h7, h8, g, h9⟩ := hs
      obtain ⟨comps, h4, h5⟩ := ih [] .nil
      have hh := head_of_segs fm (fun s hs => hl s (by simp [hs])) hn.head
      refine ⟨(if acc = [] then [] else [.constant acc]) ++ .variable n (some g) :: comps, ?_,
        fun run vars => ?_⟩
      · rw [show (Seg.ref n (some f)).source ++ segs.flatMap Seg.source =
            0x7b :: ((n ++ 0x3a :: f) ++ 0x7d :: segs.flatMap Seg.source) by
              simp [Seg.source, utf8_lb, utf8_rb, utf8_colon],
          tokenise_ref fm acc ha ?_ ?_ (by simp) hh, h4]
        · simp [Component.parseVariable, splitAtByte_some h6, h9]
        · intro c hc
          simp only [List.mem_append, List.mem_cons] at hc
          rcases hc with hc | rfl | hc
          · exact ⟨(h2 c hc).1, (h2 c hc).2.1⟩
          · decide
          · exact ⟨(h7 c hc).1, (h7 c hc).2.1⟩
        · exact h3.append (isUtf8_colon.append h8)
      · rw [renderComponents_append, render_constant, List.map_cons, concat_cons]
        simp only [Template.renderComponents, Template.renderComponent, h5, Seg.value, Res.bind_ok,
          Option.bind_some, h9]
        cases List.lookup n vars with
        | none => rfl
        | some v =>
          simp only [Res.ofOption_some, Res.bind_ok]
          cases run g v <;> simp

/-! ## Any line -/

/-- The head of the rest of a greedy reading. -/
theorem head_toks {ts : List Tok} (h : Greedy ts) :
    ((ts.flatMap Tok.source).head? = some 0x7b → ts.head? = some .open1 ∨ ts.head? = some .open2) ∧
    ((ts.flatMap Tok.source).head? = some 0x7d → ts.head? = some .close1 ∨ ts.head? = some .close2) := by
  cases ts with
  | nil => simp
  | cons t ts =>
    have hc := h.1
    match t with
    | .text [] => exact absurd rfl hc.1
    | .text (c :: t) =>
      have h1 := hc.2.1
      have h2 := hc.2.2
      simp only [List.mem_cons, not_or] at h1 h2
      simp [Tok.source, Ne.symm h1.1, Ne.symm h2.1]
    | .open2 => simp [Tok.source, utf8_lb2]
    | .close2 => simp [Tok.source, utf8_rb2]
    | .open1 => simp [Tok.source, utf8_lb]
    | .close1 => simp [Tok.source, utf8_rb]
    | .name [] none => exact absurd rfl hc.1
    | .name (c :: n) none =>
      have h1 := hc.2.1
      have h2 := hc.2.2.1
      simp only [List.mem_cons, not_or] at h1 h2
      simp [Tok.source, Ne.symm h1.1, Ne.symm h2.1]
    | .name [] (some f) => simp [Tok.source, utf8_colon]
    | .name (c :: n) (some f) =>
      have h1 := hc.1
      have h2 := hc.2.1
      simp only [List.mem_cons, not_or] at h1 h2
      simp [Tok.source, Ne.symm h1.1, Ne.symm h2.1]

theorem brace_free {t : Bytes} (h1 : 0x7b ∉ t) (h2 : 0x7d ∉ t) : ∀ c ∈ t, c ≠ 0x7b ∧ c ≠ 0x7d :=
  fun c hc => ⟨by rintro rfl; exact h1 hc, by rintro rfl; exact h2 hc⟩

/-- Any line whose texts are UTF-8 and whose functions are registered is tokenised, and its components
render as its tokens. -/
theorem tokenise_toks (fm : FunctionMap φ) {ts : List Tok} (hg : Greedy ts)
    (hk : ∀ t ∈ ts, t.Known fm) (acc : Bytes) (ha : IsUtf8 acc)
    (hacc : acc = [] ∨ Tok.Follows (.text []) ts.head?) :
    ∃ comps, tokenise fm acc (ts.flatMap Tok.source) = .ok comps ∧
      ∀ run vars, Template.renderComponents run vars comps =
        (do let y ← concat (ts.map (Tok.value fm run vars)); .ok (acc ++ y)) := by
  induction ts generalizing acc with
  | nil =>
    refine ⟨_, by simp [tokenise, popConstant_ok ha]; rfl, fun run vars => ?_⟩
    rw [render_constant]; simp [concat]
  | cons t ts ih =>
    have ht := hk t (by simp)
    have ih := ih hg.2.2 (fun t h => hk t (by simp [h]))
    obtain ⟨hc, hf, hg'⟩ := hg
    obtain ⟨hh1, hh2⟩ := head_toks hg'
    rw [List.flatMap_cons]
    match t with
    | .text t =>
      rcases hacc with rfl | hacc
      · have hf' : Tok.Follows (.text []) ts.head? := by
          cases h : ts.head? with
          | none => trivial
          | some u => rw [h] at hf; cases u <;> exact hf
        obtain ⟨comps, h4, h5⟩ := ih t ht (.inr hf')
        refine ⟨comps, ?_, fun run vars => ?_⟩
        · rw [show (Tok.text t).source = t from rfl, tokenise_plain fm (brace_free hc.2.1 hc.2.2),
            List.nil_append, h4]
        · rw [h5, List.map_cons, concat_cons]
          simp only [Tok.value, Res.bind_ok]
          cases concat (ts.map (Tok.value fm run vars)) <;> simp
      · exact absurd hacc (by simp [Tok.Follows])
    | .open2 =>
      obtain ⟨comps, h4, h5⟩ := ih [] .nil (.inl rfl)
      refine ⟨[.constant (acc ++ [0x7b])] ++ comps, ?_, fun run vars => ?_⟩
      · rw [show (Tok.open2).source = [0x7b, 0x7b] from utf8_lb2, List.cons_append,
          List.cons_append, List.nil_append, tokenise_lb2,
          popConstant_ok (ha.append isUtf8_lb), h4]
        simp
      · rw [renderComponents_append, h5, List.map_cons, concat_cons]
        simp only [Tok.value, Res.bind_ok, Template.renderComponents, Template.renderComponent, utf8_lb]
        cases concat (ts.map (Tok.value fm run vars)) <;> simp
    | .close2 =>
      obtain ⟨comps, h4, h5⟩ := ih [] .nil (.inl rfl)
      refine ⟨[.constant (acc ++ [0x7d])] ++ comps, ?_, fun run vars => ?_⟩
      · rw [show (Tok.close2).source = [0x7d, 0x7d] from utf8_rb2, List.cons_append,
          List.cons_append, List.nil_append, tokenise_rb2,
          popConstant_ok (ha.append isUtf8_rb), h4]
        simp
      · rw [renderComponents_append, h5, List.map_cons, concat_cons]
        simp only [Tok.value, Res.bind_ok, Template.renderComponents, Template.renderComponent, utf8_rb]
        cases concat (ts.map (Tok.value fm run vars)) <;> simp
    | .open1 =>
      obtain ⟨comps, h4, h5⟩ := ih [] .nil (.inl rfl)
      have hh : (ts.flatMap Tok.source).head? ≠ some 0x7b := by
        intro h
        rcases hh1 h with h | h <;> rw [h] at hf <;> exact hf
      refine ⟨(if acc = [] then [] else [.constant acc]) ++ comps, ?_, fun run vars => ?_⟩
      · rw [show (Tok.open1).source = [0x7b] from utf8_lb, List.singleton_append,
          tokenise_lb _ _ hh, popConstant_ok ha, h4]
        rfl
      · rw [renderComponents_append, render_constant, h5, List.map_cons, concat_cons]
        simp only [Tok.value, Res.bind_ok]
    | .close1 =>
      obtain ⟨comps, h4, h5⟩ := ih [] .nil (.inl rfl)
      have hh : (ts.flatMap Tok.source).head? ≠ some 0x7d := by
        intro h
        rcases hh2 h with h | h <;> rw [h] at hf <;> exact hf
      rcases hacc with rfl | hacc
      · refine ⟨comps, ?_, fun run vars => ?_⟩
        · rw [show (Tok.close1).source = [0x7d] from utf8_rb, List.singleton_append,
            tokenise_rb _ _ hh, h4]
          simp [popVariable, popToken]
        · rw [h5, List.map_cons, concat_cons]
          simp only [Tok.value, Res.bind_ok]
          cases concat (ts.map (Tok.value fm run vars)) <;> simp
      · exact absurd hacc (by simp [Tok.Follows])
    | .name n none =>
      obtain ⟨comps, h4, h5⟩ := ih [] .nil (.inl rfl)
      have hh : (ts.flatMap Tok.source).head? ≠ some 0x7d := by
        intro h
        rcases hh2 h with h | h <;> rw [h] at hf <;> exact hf
      rcases hacc with rfl | hacc
      · refine ⟨.variable n none :: comps, ?_, fun run vars => ?_⟩
        · rw [show (Tok.name n none).source ++ ts.flatMap Tok.source =
              n ++ 0x7d :: ts.flatMap Tok.source by simp [Tok.source, utf8_rb],
            tokenise_plain fm (brace_free hc.2.1 hc.2.2.1), List.nil_append, tokenise_rb _ _ hh,
            popVariable_ok _ ht hc.1, h4]
          simp [Component.parseVariable, splitAtByte_none hc.2.2.2]
        · rw [List.map_cons, concat_cons]
          simp only [Template.renderComponents, Template.renderComponent, h5, Tok.value, Seg.value,
            Res.bind_ok]
          cases List.lookup n vars <;> simp
      · exact absurd hacc (by simp [Tok.Follows])
    | .name n (some f) =>
      obtain ⟨comps, h4, h5⟩ := ih [] .nil (.inl rfl)
      have hh : (ts.flatMap Tok.source).head? ≠ some 0x7d := by
        intro h
        rcases hh2 h with h | h <;> rw [h] at hf <;> exact hf
      obtain ⟨k1, k2, g, k3⟩ := ht
      obtain ⟨c1, c2, c3, c4, c5⟩ := hc
      rcases hacc with rfl | hacc
      · refine ⟨.variable n (some g) :: comps, ?_, fun run vars => ?_⟩
        · rw [show (Tok.name n (some f)).source ++ ts.flatMap Tok.source =
              (n ++ 0x3a :: f) ++ 0x7d :: ts.flatMap Tok.source by
                simp [Tok.source, utf8_rb, utf8_colon],
            tokenise_plain fm (brace_free (by simp [c1, c4]) (by simp [c2, c5])), List.nil_append,
            tokenise_rb _ _ hh, popVariable_ok _ (show IsUtf8 (n ++ 0x3a :: f) from k1.append (isUtf8_colon.append k2))
              (by simp), h4]
          simp [Component.parseVariable, splitAtByte_some c3, k3]
        · rw [List.map_cons, concat_cons]
          simp only [Template.renderComponents, Template.renderComponent, h5, Tok.value, Seg.value,
            Res.bind_ok, Option.bind_some, k3]
          cases List.lookup n vars with
          | none => rfl
          | some v =>
            simp only [Res.ofOption_some, Res.bind_ok]
            cases run g v <;> simp
      · exact absurd hacc (by simp [Tok.Follows])

/-! ## Lines -/

theorem splitLines_append {l : Bytes} (h : 0x0a ∉ l) (rest : Bytes) :
    splitLines (l ++ 0x0a :: rest) = l :: splitLines rest := by
  induction l with
  | nil => simp [splitLines]
  | cons c l ih =>
    simp only [List.mem_cons, not_or] at h
    simp [splitLines, ih h.2, Ne.symm h.1]

theorem splitLines_ne_nil (b : Bytes) : splitLines b ≠ [] := by
  cases b with
  | nil => simp [splitLines]
  | cons c b =>
    simp only [splitLines]
    split
    · simp
    · split <;> simp

theorem splitLines_fileText (crlf : Bool) {lines : List Bytes} (h : ∀ l ∈ lines, 0x0a ∉ l)
    (rest : Bytes) : splitLines (fileText crlf lines ++ rest) =
      lines.map (· ++ cr crlf) ++ splitLines rest := by
  induction lines with
  | nil => simp [fileText]
  | cons l lines ih =>
    have e : fileText crlf (l :: lines) ++ rest =
        (l ++ cr crlf) ++ 0x0a :: (fileText crlf lines ++ rest) := by simp [fileText]
    rw [e, splitLines_append, ih (fun l hl => h l (by simp [hl]))]
    · simp
    · have := h l (by simp)
      cases crlf <;> simp [cr, this]

theorem compileLines_append (fm : FunctionMap φ) (s : CompileState φ) (a b : List Bytes) :
    compileLines fm s (a ++ b) = (do let s ← compileLines fm s a; compileLines fm s b) := by
  induction a generalizing s with
  | nil => rfl
  | cons l a ih =>
    simp only [List.cons_append, compileLines]
    cases compileLine fm s l <;> simp [ih]

theorem stripCr_cr {l : Bytes} (crlf : Bool) (h : l.getLast? ≠ some 0x0d) :
    stripCr (l ++ cr crlf) = l := by
  cases crlf <;> simp [stripCr, cr, h]

theorem compileLine_push (fm : FunctionMap φ) (crlf : Bool) (s : CompileState φ) {name : Bytes}
    (hu : IsUtf8 name) (hr : name.getLast? ≠ some 0x0d) :
    compileLine fm s (pushPrefix ++ name ++ cr crlf) =
      .ok ⟨s.fragments, ⟨name, []⟩ :: s.stack⟩ := by
  have h1 : pushPrefix ++ name ++ cr crlf ≠ [] := by simp [pushPrefix]
  have h2 : (pushPrefix ++ name).getLast? ≠ some 0x0d := by
    rw [List.getLast?_append]
    cases h : name.getLast? with
    | none => simp [pushPrefix]
    | some c => simpa [h] using hr
  have h3 : pushPrefix.isPrefixOf (pushPrefix ++ name) = true := by simp
  have h4 : (pushPrefix ++ name).drop 15 = name := by
    rw [show 15 = pushPrefix.length from rfl, List.drop_left]
  simp only [compileLine, if_neg h1, stripCr_cr crlf h2, h3, if_true, h4,
    (validUtf8_iff name).mpr hu]

theorem compileLine_pop (fm : FunctionMap φ) (crlf : Bool) (frs : List (Bytes × Fragment φ))
    (f : Fragment φ) (stack : List (Fragment φ)) :
    compileLine fm ⟨frs, f :: stack⟩ (popPrefix ++ cr crlf) =
      .ok ⟨(joinDots ((f :: stack).reverse.map Fragment.name), f) :: frs, stack⟩ := by
  cases crlf <;> rfl

theorem compileLine_text (fm : FunctionMap φ) (crlf : Bool) (frs : List (Bytes × Fragment φ))
    (cur : Fragment φ) (stack : List (Fragment φ)) {l : Bytes} {comps : List (Component φ)}
    (hl : IsTextLine l) (hc : tokenise fm [] l = .ok comps) :
    compileLine fm ⟨frs, cur :: stack⟩ (l ++ cr crlf) =
      .ok ⟨frs, ⟨cur.name, cur.content ++ (comps ++ [.newLine])⟩ :: stack⟩ := by
  obtain ⟨h1, h2, h3, h4⟩ := hl
  rw [utf8_push] at h3
  rw [utf8_pop] at h4
  have h3' : pushPrefix.isPrefixOf l = false := by
    rw [Bool.eq_false_iff]; simpa using h3
  have h4' : popPrefix.isPrefixOf l = false := by
    rw [Bool.eq_false_iff]; simpa using h4
  have h5 : l ++ cr crlf ≠ [] := by simp [h1]
  simp [compileLine, h1, stripCr_cr crlf h2, h3', h4', hc]

/-- Appending to the innermost open fragment. -/
def addTop (comps : List (Component φ)) : List (Fragment φ) → List (Fragment φ)
  | [] => []
  | c :: t => ⟨c.name, c.content ++ comps⟩ :: t

theorem addTop_addTop (a b : List (Component φ)) (st : List (Fragment φ)) :
    addTop b (addTop a st) = addTop (a ++ b) st := by
  cases st <;> simp [addTop]

theorem addTop_names (a : List (Component φ)) (st : List (Fragment φ)) :
    (addTop a st).reverse.map Fragment.name = st.reverse.map Fragment.name := by
  cases st <;> simp [addTop]

/-- An entry of the fragment table holds what the specification says. -/
def Holds (fm : FunctionMap φ) (crlf : Bool) (e : List Bytes × List Node) (f : Bytes × Fragment φ) :
    Prop :=
  f.1 = dotted e.1 ∧ ∀ run vars, Template.renderComponents run vars f.2.content =
    concat (e.2.map (Node.value fm run crlf vars))

/-- What compiling nodes does to the state. -/
def Compiles (fm : FunctionMap φ) (crlf : Bool) (lines : List Bytes) (st : List (Fragment φ))
    (frags : List (List Bytes × List Node)) (nodes : List Node) : Prop :=
  ∃ comps new, List.Forall₂ (Holds fm crlf) frags new ∧
    (∀ run vars, Template.renderComponents run vars comps =
      concat (nodes.map (Node.value fm run crlf vars))) ∧
    ∀ frs, compileLines fm ⟨frs, st⟩ (lines.map (· ++ cr crlf)) =
      .ok ⟨new.reverse ++ frs, addTop comps st⟩

mutual
theorem compile_node (fm : FunctionMap φ) (crlf inside : Bool) (n : Node)
    (h : n.Legal fm crlf inside) (st : List (Fragment φ)) (hst : inside = true → st ≠ []) :
    Compiles fm crlf n.lines st (n.frags (st.reverse.map Fragment.name)) [n] := by
  match n, h with
  | .blank, h =>
    simp only [Node.Legal] at h
    cases crlf with
    | false =>
      refine ⟨[], [], by simp [Node.frags], ?_, fun frs => ?_⟩
      · intro run vars; rfl
      · simp only [Node.lines, List.map_cons, cr]
        cases st <;> simp [compileLines, compileLine, addTop]
    | true =>
      have hi : inside = true := by simpa using h
      refine ⟨[.newLine], [], by simp [Node.frags], ?_, fun frs => ?_⟩
      · intro run vars; rfl
      · match st, hst hi with
        | c :: t, _ =>
          simp [Node.lines, cr, compileLines, compileLine, stripCr, pushPrefix, popPrefix, tokenise,
            popConstant, popToken, addTop]
  | .line segs, h =>
    obtain ⟨hi, h1, h2, h3⟩ := h
    obtain ⟨comps, h4, h5⟩ := tokenise_segs fm h1 h2 [] .nil
    refine ⟨comps ++ [.newLine], [], by simp [Node.frags], ?_, fun frs => ?_⟩
    · intro run vars
      rw [renderComponents_append, h5]
      simp only [List.map_cons, List.map_nil, concat_cons, Node.value, concat_append, concat,
        Template.renderComponents, Template.renderComponent]
      cases concat (segs.map (Seg.value fm run vars)) <;> simp
    · match st, hst hi with
      | c :: t, _ =>
        simp only [Node.lines, List.map_cons, List.map_nil, compileLines]
        rw [compileLine_text fm crlf frs c t h3 h4]
        simp [addTop]
  | .frag name body, h =>
    obtain ⟨h1, h2, h3, h4⟩ := h
    obtain ⟨comps, new, h5, h6, h7⟩ :=
      compile_nodes fm crlf true body h4 (⟨name, []⟩ :: st) (by simp)
    refine ⟨[], new ++ [(joinDots ((⟨name, []⟩ :: st).reverse.map Fragment.name), ⟨name, comps⟩)],
      ?_, ?_, fun frs => ?_⟩
    · have e : (({ name := name, content := [] } : Fragment φ) :: st).reverse.map Fragment.name =
          st.reverse.map Fragment.name ++ [name] := by simp
      rw [e] at h5 ⊢
      rw [Node.frags]
      exact List.rel_append h5 (.cons ⟨dotted_eq _, h6⟩ .nil)
    · intro run vars; rfl
    · rw [Node.lines, List.map_cons, List.map_append, compileLines, utf8_push,
        compileLine_push fm crlf _ h1 h3, Res.bind_ok, compileLines_append, h7, Res.bind_ok]
      simp only [List.map_cons, List.map_nil, compileLines, addTop, utf8_pop, compileLine_pop,
        Res.bind_ok, List.nil_append]
      cases st <;> simp

theorem compile_nodes (fm : FunctionMap φ) (crlf inside : Bool) (ns : List Node)
    (h : LegalNodes fm crlf inside ns) (st : List (Fragment φ)) (hst : inside = true → st ≠ []) :
    Compiles fm crlf (nodeLines ns) st (nodeFrags (st.reverse.map Fragment.name) ns) ns := by
  match ns, h with
  | [], _ =>
    refine ⟨[], [], by simp [nodeFrags], fun run vars => rfl, fun frs => ?_⟩
    simp only [nodeLines, List.map_nil, compileLines]
    cases st <;> simp [addTop]
  | n :: ns, h =>
    obtain ⟨c1, n1, h1, h2, h3⟩ := compile_node fm crlf inside n h.1 st hst
    obtain ⟨c2, n2, h4, h5, h6⟩ := compile_nodes fm crlf inside ns h.2 (addTop c1 st)
      (fun hi => by have := hst hi; cases st <;> simp_all [addTop])
    rw [addTop_names] at h4
    refine ⟨c1 ++ c2, n1 ++ n2, ?_, fun run vars => ?_, fun frs => ?_⟩
    · rw [nodeFrags]; exact List.rel_append h1 h4
    · rw [renderComponents_append, h2, h5, ← concat_append]; simp
    · rw [nodeLines, List.map_append, compileLines_append, h3, Res.bind_ok, h6, addTop_addTop]
      simp
end

end Proto
