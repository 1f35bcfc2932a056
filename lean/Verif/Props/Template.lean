import Verif.Gen.TemplateLemmas

/-!
# C53 - C56: the template engine
-/

namespace Proto

open Tpl

/-! ## C54: fragments -/

theorem node_lf_free (fm : FunctionMap φ) {segs : List Seg} (h : ∀ s ∈ segs, s.Legal fm) :
    0x0a ∉ segs.flatMap Seg.source := by
  intro hm
  obtain ⟨s, hs, hm⟩ := List.mem_flatMap.mp hm
  have := h s hs
  match s with
  | .text t => exact (this.2.1 _ hm).2.2 rfl
  | .lbrace => rw [Seg.source, utf8_lb2] at hm; revert hm; decide
  | .rbrace => rw [Seg.source, utf8_rb2] at hm; revert hm; decide
  | .ref n none =>
    rw [Seg.source, utf8_lb, utf8_rb] at hm
    simp only [List.mem_append, List.mem_singleton] at hm
    rcases hm with (hm | hm) | hm
    · revert hm; decide
    · exact (this.2.1 _ hm).2.2 rfl
    · revert hm; decide
  | .ref n (some f) =>
    rw [Seg.source, utf8_lb, utf8_rb, utf8_colon] at hm
    simp only [List.mem_append, List.mem_singleton] at hm
    rcases hm with (((hm | hm) | hm) | hm) | hm
    · revert hm; decide
    · exact (this.1 _ hm).2.2 rfl
    · revert hm; decide
    · exact (this.2.2.2.1 _ hm).2.2 rfl
    · revert hm; decide

mutual
theorem lf_node (fm : FunctionMap φ) (crlf inside : Bool) (n : Node) (h : n.Legal fm crlf inside) :
    ∀ l ∈ n.lines, 0x0a ∉ l := by
  match n, h with
  | .blank, _ => simp [Node.lines]
  | .line segs, h => simpa [Node.lines] using node_lf_free fm h.2.1
  | .frag name body, h =>
    intro l hl
    simp only [Node.lines, List.mem_cons, List.mem_append, List.not_mem_nil, or_false] at hl
    rcases hl with rfl | hl | rfl
    · rw [utf8_push, List.mem_append]
      exact fun hh => hh.elim (by decide) h.2.1
    · exact lf_nodes fm crlf true body h.2.2.2 l hl
    · rw [utf8_pop]; decide
theorem lf_nodes (fm : FunctionMap φ) (crlf inside : Bool) (ns : List Node)
    (h : LegalNodes fm crlf inside ns) : ∀ l ∈ nodeLines ns, 0x0a ∉ l := by
  match ns, h with
  | [], _ => simp [nodeLines]
  | n :: ns, h =>
    intro l hl
    rw [nodeLines, List.mem_append] at hl
    exact hl.elim (lf_node fm crlf inside n h.1 l) (lf_nodes fm crlf inside ns h.2 l)
end

/-- Compiling a well formed file: its fragment table, most recently closed first. -/
theorem compile_file (fm : FunctionMap φ) (crlf : Bool) (ns : List Node)
    (h : LegalNodes fm crlf false ns) :
    ∃ new, List.Forall₂ (Holds fm crlf) (nodeFrags [] ns) new ∧
      Template.compileWith fm (fileText crlf (nodeLines ns)) = .ok ⟨new.reverse, []⟩ := by
  obtain ⟨comps, new, h1, -, h3⟩ := compile_nodes fm crlf false ns h [] (by simp)
  refine ⟨new, h1, ?_⟩
  have := splitLines_fileText crlf (lf_nodes fm crlf false ns h) []
  simp only [List.append_nil] at this
  rw [Template.compileWith, this, compileLines_append, h3]
  simp [splitLines, compileLines, compileLine]

theorem forall₂_lookup {R : α → (Bytes × β) → Prop} {key : α → Bytes}
    (hk : ∀ a b, R a b → b.1 = key a) {l : List α} {new : List (Bytes × β)}
    (h : List.Forall₂ R l new) {pre post : List α} {e : α} (hl : l = pre ++ e :: post)
    (hp : ∀ q ∈ post, key q ≠ key e) :
    ∃ f, new.reverse.lookup (key e) = some f ∧ R e (key e, f) := by
  subst hl
  obtain ⟨a, b, h1, h2, rfl⟩ : ∃ a b, List.Forall₂ R pre a ∧ List.Forall₂ R (e :: post) b ∧
      new = a ++ b := by
    refine ⟨new.take pre.length, new.drop pre.length, ?_, ?_, by simp⟩
    · simpa using List.forall₂_take pre.length h
    · simpa using List.forall₂_drop pre.length h
  cases h2 with
  | @cons _ x _ xs hx hxs =>
    refine ⟨x.2, ?_, ?_⟩
    · rw [List.reverse_append, List.reverse_cons, List.append_assoc, List.lookup_append,
        List.lookup_eq_none_iff.mpr, Option.none_or]
      · have e1 := hk e x hx
        obtain ⟨x1, x2⟩ := x
        simp only at e1
        subst e1
        simp
      · intro y hy
        rw [List.mem_reverse] at hy
        obtain ⟨i, hi, rfl⟩ := List.getElem_of_mem hy
        have hi' : i < post.length := by rw [hxs.length_eq]; exact hi
        have := hk _ _ (List.forall₂_iff_get.mp hxs |>.2 i hi' hi)
        simp only [List.get_eq_getElem] at this
        rw [this]
        have := hp (post[i]) (List.getElem_mem _)
        simpa using this.symm
    · have e1 := hk e x hx
      rw [← e1]; exact hx

/-- **C54.** A well formed file compiles.  Each fragment is found under the dot-joined names of the
fragments around it, and renders as the lines directly inside it (when two fragments have the same
dotted name the one closed last is found). -/
theorem C54_fragments (fm : FunctionMap φ) (crlf : Bool) (ns : List Node)
    (h : LegalNodes fm crlf false ns) :
    ∃ t, Template.compileWith fm (fileText crlf (nodeLines ns)) = .ok t ∧ t.variables = [] ∧
      ∀ run vars pre names body post path name, nodeFrags [] ns = pre ++ (names, body) :: post →
        (∀ q ∈ post, dotted q.1 ≠ dotted names) →
        (path = [] ∧ name = dotted names ∨ path ≠ [] ∧ path ++ utf8 "." ++ name = dotted names) →
        (Scope.mk t vars).render run path [name] =
          concat (body.map (Node.value fm run crlf vars)) := by
  obtain ⟨new, h1, h2⟩ := compile_file fm crlf ns h
  refine ⟨_, h2, rfl, fun run vars pre names body post path name h3 h4 h5 => ?_⟩
  obtain ⟨f, h6, h7, h8⟩ := forall₂_lookup (key := fun e : List Bytes × List Node => dotted e.1)
    (fun a b hb => hb.1) h1 h3 h4
  have hf : Template.fullName path name = dotted names := by
    unfold Template.fullName
    rcases h5 with ⟨rfl, rfl⟩ | ⟨h5, h6⟩
    · simp
    · rw [if_neg h5, ← h6, utf8_dot]
  rw [Scope.render, Template.renderInternal, hf, h6]
  simp only [Res.ofOption_some, Res.bind_ok, Template.renderInternal, h8]
  cases concat (body.map (Node.value fm run crlf vars)) <;> simp

/-- **C54.** Rendering several fragments is rendering each of them, in order. -/
theorem C54_several (run : φ → Bytes → Res TError Bytes) (s : Scope φ) (path : Bytes)
    (names : List Bytes) :
    s.render run path names = concat (names.map fun n => s.render run path [n]) := by
  induction names with
  | nil => rfl
  | cons n ns ih =>
    rw [List.map_cons, concat_cons, ← ih]
    simp only [Scope.render, Template.renderInternal]
    cases Res.ofOption (TError.fragmentNotFound (Template.fullName path n))
      (s.template.fragments.lookup (Template.fullName path n)) with
    | ok f =>
      simp only [Res.bind_ok]
      cases Template.renderComponents run s.variables f.content <;> simp
    | err e => rfl
    | panic => rfl

/-- **C54.** A template renders as the scope made from it. -/
theorem C54_template (run : φ → Bytes → Res TError Bytes) (t : Template φ) (path : Bytes)
    (names : List Bytes) : t.render run path names = t.scope.render run path names := rfl

namespace Ex
/-- A template with a nested fragment, a reference, a transformed reference and doubled braces. -/
def tpl : List Node :=
  [.frag (utf8 "a") [.line [.text (utf8 "struct "), .ref (utf8 "x") none, .text (utf8 " "), .lbrace],
     .frag (utf8 "b") [.blank, .line [.ref (utf8 "y") (some (utf8 "capitalize"))]],
     .line [.rbrace]], .blank]

theorem tpl_legal : LegalNodes FunctionMap.default false false tpl := by
  have hp : ∀ s : String, ((utf8 s).all fun c => c ≠ 0x7b ∧ c ≠ 0x7d ∧ c ≠ 0x0a) = true →
      Plain (utf8 s) := by
    intro s h c hc
    simpa using List.all_eq_true.mp h c hc
  have t1 : IsTextLine ([Seg.text (utf8 "struct "), .ref (utf8 "x") none, .text (utf8 " "),
      .lbrace].flatMap Seg.source) := by unfold IsTextLine; decide +kernel
  have t2 : IsTextLine ([Seg.ref (utf8 "y") (some (utf8 "capitalize"))].flatMap Seg.source) := by
    unfold IsTextLine; decide +kernel
  have t3 : IsTextLine ([Seg.rbrace].flatMap Seg.source) := by unfold IsTextLine; decide +kernel
  simp only [tpl, LegalNodes, Node.Legal, true_and, and_true, or_true, List.mem_cons,
    List.not_mem_nil, or_false, forall_eq_or_imp, forall_eq, Seg.Legal, NoClash]
  exact ⟨utf8_isUtf8 _, by decide +kernel, by decide +kernel,
    ⟨⟨⟨by decide +kernel, hp _ (by decide +kernel), utf8_isUtf8 _⟩,
      ⟨by decide +kernel, hp _ (by decide +kernel), utf8_isUtf8 _, by decide +kernel⟩,
      by decide +kernel, hp _ (by decide +kernel), utf8_isUtf8 _⟩, t1⟩,
    ⟨utf8_isUtf8 _, by decide +kernel, by decide +kernel,
     ⟨hp _ (by decide +kernel), utf8_isUtf8 _, by decide +kernel, hp _ (by decide +kernel),
       utf8_isUtf8 _, .capitalize, by decide +kernel⟩, t2⟩, t3⟩

/-- Case mappings for the examples. -/
def cm : CaseMap := ⟨id, id⟩
end Ex

example : ∃ t, Template.compile (fileText false (nodeLines Ex.tpl)) = .ok t ∧
    (Scope.mk t [(utf8 "x", utf8 "Foo"), (utf8 "y", utf8 "bar")]).render (Fn.run Ex.cm) [] [utf8 "a"] =
      .ok (utf8 "struct Foo {\n}\n") ∧
    (Scope.mk t [(utf8 "x", utf8 "Foo"), (utf8 "y", utf8 "bar")]).render (Fn.run Ex.cm) (utf8 "a")
      [utf8 "b"] = .ok (utf8 "Bar\n") := by
  obtain ⟨t, h1, -, h2⟩ := C54_fragments FunctionMap.default false Ex.tpl Ex.tpl_legal
  refine ⟨t, h1, ?_, ?_⟩
  · rw [h2 _ _ [([utf8 "a", utf8 "b"], _)] [utf8 "a"] _ [] [] (utf8 "a") rfl (by simp)
      (.inl ⟨rfl, rfl⟩)]
    decide +kernel
  · rw [h2 _ _ [] [utf8 "a", utf8 "b"] _ [([utf8 "a"], _)] (utf8 "a") (utf8 "b") rfl
      (by simp; decide +kernel) (.inr ⟨by decide +kernel, by decide +kernel⟩)]
    decide +kernel

/-! ## C53: lines -/

/-- **C53.** A fragment made of lines of text, doubled braces and references renders as the text with
doubled braces halved and references replaced, each line followed by a line feed, provided no reference
is directly followed by a doubled closing brace (see `C53_full_false`; `C53_any_line` is about all
lines). -/
theorem C53_lines (fm : FunctionMap φ) (crlf : Bool) (name : Bytes) (hu : IsUtf8 name)
    (hn : 0x0a ∉ name) (hr : name.getLast? ≠ some 0x0d) (lines : List (List Seg))
    (hl : ∀ l ∈ lines, (∀ s ∈ l, s.Legal fm) ∧ IsTextLine (l.flatMap Seg.source))
    (hc : ∀ l ∈ lines, NoClash l) :
    ∃ t, Template.compileWith fm (fileText crlf ((utf8 "#fragment push " ++ name) ::
        (lines.map (·.flatMap Seg.source) ++ [utf8 "#fragment pop"]))) = .ok t ∧
      ∀ run vars, (Scope.mk t vars).render run [] [name] =
        concat (lines.flatMap fun l => l.map (Seg.value fm run vars) ++ [.ok (utf8 "\n")]) := by
  have hb : LegalNodes fm crlf true (lines.map Node.line) := by
    clear hu hn hr
    induction lines with
    | nil => trivial
    | cons l lines ih =>
      exact ⟨⟨rfl, (hl l (by simp)).1, hc l (by simp), (hl l (by simp)).2⟩,
        ih (fun l h => hl l (by simp [h])) (fun l h => hc l (by simp [h]))⟩
  obtain ⟨t, h1, -, h2⟩ := C54_fragments fm crlf [.frag name (lines.map .line)]
    ⟨⟨hu, hn, hr, hb⟩, trivial⟩
  have e : nodeLines (lines.map Node.line) = lines.map (·.flatMap Seg.source) := by
    clear hu hn hr hb h1 h2 hl hc
    induction lines with
    | nil => rfl
    | cons l lines ih => simp [nodeLines, Node.lines, ih]
  have e2 : ∀ x, nodeFrags x (lines.map Node.line) = [] := by
    intro x
    clear hu hn hr hb h1 h2 hl hc e
    induction lines with
    | nil => rfl
    | cons l lines ih => simp [nodeFrags, Node.frags, ih]
  refine ⟨t, ?_, fun run vars => ?_⟩
  · simpa [nodeLines, Node.lines, e] using h1
  · have hf : nodeFrags [] [.frag name (lines.map Node.line)] = [([name], lines.map Node.line)] := by
      simp [nodeFrags, Node.frags, e2]
    rw [h2 run vars [] [name] (lines.map Node.line) [] [] name hf (by simp) (.inl ⟨rfl, rfl⟩)]
    clear hu hn hr hb h1 h2 hl hc e e2 hf
    induction lines with
    | nil => rfl
    | cons l lines ih =>
      rw [List.map_cons, List.map_cons, concat_cons, ih, List.flatMap_cons, concat_append, Node.value]
      rfl

/-- **C53.** A reference directly followed by a doubled closing brace is not replaced. -/
theorem C53_full_false : ∃ t, Template.compile (fileText false
      ((utf8 "#fragment push " ++ utf8 "f") :: ([[Seg.ref (utf8 "a") none, .rbrace]].map
        (·.flatMap Seg.source) ++ [utf8 "#fragment pop"]))) = .ok t ∧
    ∀ run vars, (Scope.mk t vars).render run [] [utf8 "f"] = .ok (utf8 "a}\n") := by
  refine ⟨⟨[(utf8 "f", ⟨utf8 "f", [.constant (utf8 "a}"), .newLine]⟩)], []⟩, by decide +kernel, ?_⟩
  intro run vars
  rw [Scope.render, Template.renderInternal]
  have : List.lookup (Template.fullName [] (utf8 "f"))
      [(utf8 "f", (⟨utf8 "f", [.constant (utf8 "a}"), .newLine]⟩ : Fragment Fn))] =
      some ⟨utf8 "f", [.constant (utf8 "a}"), .newLine]⟩ := by decide +kernel
  rw [this]
  simp only [Res.ofOption_some, Res.bind_ok, Template.renderComponents, Template.renderComponent,
    Template.renderInternal]
  decide +kernel

/-- **C53.** Every line of bytes has a greedy reading. -/
theorem C53_readings (l : Bytes) : ∃ ts, Greedy ts ∧ ts.flatMap Tok.source = l := by
  have main : ∀ k, ∀ l : Bytes, l.length ≤ k → ∃ ts, Greedy ts ∧ ts.flatMap Tok.source = l := by
    intro k
    induction k with
    | zero =>
      intro l hl
      have : l = [] := List.length_eq_zero_iff.mp (by omega)
      exact ⟨[], trivial, by simp [this]⟩
    | succ k ih =>
      intro l hl
      obtain ⟨t, rest, rfl, ht1, ht2, hr⟩ : ∃ t rest, l = t ++ rest ∧ 0x7b ∉ t ∧ 0x7d ∉ t ∧
          (rest = [] ∨ ∃ r, rest = 0x7b :: r ∨ rest = 0x7d :: r) := by
        clear hl
        induction l with
        | nil => exact ⟨[], [], rfl, by simp, by simp, .inl rfl⟩
        | cons c l ihl =>
          by_cases h1 : c = 0x7b
          · exact ⟨[], c :: l, rfl, by simp, by simp, .inr ⟨l, .inl (by rw [h1])⟩⟩
          · by_cases h2 : c = 0x7d
            · exact ⟨[], c :: l, rfl, by simp, by simp, .inr ⟨l, .inr (by rw [h2])⟩⟩
            · obtain ⟨t, rest, rfl, a, b, h⟩ := ihl
              exact ⟨c :: t, rest, rfl, by simp [a, Ne.symm h1], by simp [b, Ne.symm h2], h⟩
      have colon : ∀ t : Bytes, 0x3a ∈ t → ∃ n f, t = n ++ 0x3a :: f ∧ 0x3a ∉ n := by
        intro t
        induction t with
        | nil => simp
        | cons c t ihc =>
          intro h
          by_cases hc : c = 0x3a
          · exact ⟨[], t, by simp [hc], by simp⟩
          · obtain ⟨n, f, rfl, hn⟩ := ihc (by
              rcases List.mem_cons.1 h with h | h
              · exact absurd h.symm hc
              · exact h)
            exact ⟨c :: n, f, rfl, by simp [hn, Ne.symm hc]⟩
      -- a reading of the part after the text, followed by the text itself
      have withText : ∀ ts, Greedy ts → ts.flatMap Tok.source = rest →
          Tok.Follows (.text t) ts.head? → ∃ ts, Greedy ts ∧ ts.flatMap Tok.source = t ++ rest := by
        intro ts h1 h2 h3
        by_cases h0 : t = []
        · exact ⟨ts, h1, by simp [h0, h2]⟩
        · exact ⟨.text t :: ts, ⟨⟨h0, ht1, ht2⟩, h3, h1⟩, by simp [Tok.source, h2]⟩
      rcases hr with rfl | ⟨r, rfl | rfl⟩
      · exact withText [] trivial rfl trivial
      · cases r with
        | nil => exact withText [.open1] ⟨trivial, trivial, trivial⟩ (by simp [Tok.source, utf8_lb]) trivial
        | cons d r =>
          by_cases hd : d = 0x7b
          · subst hd
            obtain ⟨ts, h1, h2⟩ := ih r (by simp at hl; omega)
            exact withText (.open2 :: ts) ⟨trivial, trivial, h1⟩ (by simp [Tok.source, utf8_lb2, h2])
              trivial
          · obtain ⟨ts, h1, h2⟩ := ih (d :: r) (by simp at hl ⊢; omega)
            refine withText (.open1 :: ts) ⟨trivial, ?_, h1⟩ (by simp [Tok.source, utf8_lb, h2]) trivial
            cases ts with
            | nil => trivial
            | cons u ts =>
              cases u with
              | open1 => simp [Tok.source, utf8_lb] at h2; exact absurd h2.1.symm hd
              | open2 => simp [Tok.source, utf8_lb2] at h2; exact absurd h2.1.symm hd
              | _ => trivial
      · have single : ∀ ts, Greedy ts → ts.flatMap Tok.source = r →
            (∀ c, (Tok.close1 : Tok).Follows ts.head? → c = Tok.close1 ∨ (∃ n f, c = Tok.name n f) →
              c.Follows ts.head?) → r.head? ≠ some 0x7d →
            ∃ ts, Greedy ts ∧ ts.flatMap Tok.source = t ++ 0x7d :: r := by
          intro ts h1 h2 h3 h4
          have h5 : (Tok.close1 : Tok).Follows ts.head? := by
            cases ts with
            | nil => trivial
            | cons u ts =>
              cases u with
              | close1 => rw [← h2] at h4; simp [Tok.source, utf8_rb] at h4
              | close2 => rw [← h2] at h4; simp [Tok.source, utf8_rb2] at h4
              | _ => trivial
          by_cases h0 : t = []
          · exact ⟨.close1 :: ts, ⟨trivial, h5, h1⟩, by simp [h0, Tok.source, utf8_rb, h2]⟩
          · by_cases hcol : 0x3a ∈ t
            · obtain ⟨n, f, rfl, hn⟩ := colon t hcol
              simp only [List.mem_append, List.mem_cons, not_or] at ht1 ht2
              exact ⟨.name n (some f) :: ts, ⟨⟨ht1.1, ht2.1, hn, ht1.2.2, ht2.2.2⟩,
                h3 _ h5 (.inr ⟨_, _, rfl⟩), h1⟩, by simp [Tok.source, utf8_rb, utf8_colon, h2]⟩
            · exact ⟨.name t none :: ts, ⟨⟨h0, ht1, ht2, hcol⟩, h3 _ h5 (.inr ⟨_, _, rfl⟩), h1⟩,
                by simp [Tok.source, utf8_rb, h2]⟩
        have follows : ∀ (ts : List Tok) (c : Tok), (Tok.close1 : Tok).Follows ts.head? →
            c = Tok.close1 ∨ (∃ n f, c = Tok.name n f) → c.Follows ts.head? := by
          intro ts c h hc
          rcases hc with rfl | ⟨n, f, rfl⟩
          · exact h
          · cases ts with
            | nil => trivial
            | cons u ts => cases u <;> first | trivial | exact h
        cases r with
        | nil => exact single [] trivial rfl (follows []) (by simp)
        | cons d r =>
          by_cases hd : d = 0x7d
          · subst hd
            obtain ⟨ts, h1, h2⟩ := ih r (by simp at hl; omega)
            exact withText (.close2 :: ts) ⟨trivial, trivial, h1⟩ (by simp [Tok.source, utf8_rb2, h2])
              trivial
          · obtain ⟨ts, h1, h2⟩ := ih (d :: r) (by simp at hl ⊢; omega)
            exact single ts h1 h2 (follows ts) (by simpa using hd)
  exact main l.length l (Nat.le_refl _)

theorem Tpl.Greedy.of_open : ∀ {ts : List Tok}, Greedy ts → (ts.flatMap Tok.source).head? = some 0x7b →
    ts.head? = some .open1 ∨ ts.head? = some .open2
  | [], _, h => by simp at h
  | u :: ts, hg, h => by
    obtain ⟨hc, -, -⟩ := hg
    match u, hc with
    | .open1, _ => exact .inl rfl
    | .open2, _ => exact .inr rfl
    | .close1, _ => simp [Tok.source, utf8_rb] at h
    | .close2, _ => simp [Tok.source, utf8_rb2] at h
    | .text [], hc => exact absurd rfl hc.1
    | .text (x :: t), hc => simp [Tok.source] at h; exact absurd (h ▸ List.mem_cons_self ..) hc.2.1
    | .name [] none, hc => exact absurd rfl hc.1
    | .name (x :: t) none, hc => simp [Tok.source] at h; exact absurd (h ▸ List.mem_cons_self ..) hc.2.1
    | .name [] (some f), hc => simp [Tok.source, utf8_colon] at h
    | .name (x :: t) (some f), hc => simp [Tok.source] at h; exact absurd (h ▸ List.mem_cons_self ..) hc.1

theorem Tpl.Greedy.of_close : ∀ {ts : List Tok}, Greedy ts → (ts.flatMap Tok.source).head? = some 0x7d →
    ts.head? = some .close1 ∨ ts.head? = some .close2
  | [], _, h => by simp at h
  | u :: ts, hg, h => by
    obtain ⟨hc, -, -⟩ := hg
    match u, hc with
    | .close1, _ => exact .inl rfl
    | .close2, _ => exact .inr rfl
    | .open1, _ => simp [Tok.source, utf8_lb] at h
    | .open2, _ => simp [Tok.source, utf8_lb2] at h
    | .text [], hc => exact absurd rfl hc.1
    | .text (x :: t), hc => simp [Tok.source] at h; exact absurd (h ▸ List.mem_cons_self ..) hc.2.2
    | .name [] none, hc => exact absurd rfl hc.1
    | .name (x :: t) none, hc => simp [Tok.source] at h; exact absurd (h ▸ List.mem_cons_self ..) hc.2.2.1
    | .name [] (some f), hc => simp [Tok.source, utf8_colon] at h
    | .name (x :: t) (some f), hc => simp [Tok.source] at h; exact absurd (h ▸ List.mem_cons_self ..) hc.2.1

/-- Nothing, or a brace first. -/
def AtBrace (r : Bytes) : Prop := ∀ x, r.head? = some x → x = 0x7b ∨ x = 0x7d

theorem brace_split : ∀ {t t' r r' : Bytes}, 0x7b ∉ t → 0x7d ∉ t → 0x7b ∉ t' → 0x7d ∉ t' → AtBrace r → AtBrace r' →
    t ++ r = t' ++ r' → t = t' ∧ r = r'
  | [], [], _, _, _, _, _, _, _, _, h => ⟨rfl, h⟩
  | [], x :: t', r, r', _, _, h3, h4, h5, _, h => by
    rcases h5 x (by rw [List.nil_append] at h; rw [h]; rfl) with rfl | rfl
    · exact absurd (List.mem_cons_self ..) h3
    · exact absurd (List.mem_cons_self ..) h4
  | x :: t, [], r, r', h1, h2, _, _, _, h6, h => by
    rcases h6 x (by rw [List.nil_append] at h; rw [← h]; rfl) with rfl | rfl
    · exact absurd (List.mem_cons_self ..) h1
    · exact absurd (List.mem_cons_self ..) h2
  | x :: t, y :: t', r, r', h1, h2, h3, h4, h5, h6, h => by
    simp only [List.cons_append, List.cons.injEq] at h
    obtain ⟨rfl, h⟩ := h
    obtain ⟨rfl, rfl⟩ := brace_split (fun h => h1 (List.mem_cons_of_mem _ h)) (fun h => h2 (List.mem_cons_of_mem _ h))
      (fun h => h3 (List.mem_cons_of_mem _ h)) (fun h => h4 (List.mem_cons_of_mem _ h)) h5 h6 h
    exact ⟨rfl, rfl⟩

theorem colon_split : ∀ {n n' f f' : Bytes}, 0x3a ∉ n → 0x3a ∉ n' → n ++ 0x3a :: f = n' ++ 0x3a :: f' →
    n = n' ∧ f = f'
  | [], [], _, _, _, _, h => ⟨rfl, by simpa using h⟩
  | [], x :: n', _, _, _, h2, h => by
    simp only [List.nil_append, List.cons_append, List.cons.injEq] at h
    exact absurd (h.1 ▸ List.mem_cons_self ..) h2
  | x :: n, [], _, _, h1, _, h => by
    simp only [List.nil_append, List.cons_append, List.cons.injEq] at h
    exact absurd (h.1 ▸ List.mem_cons_self ..) h1
  | x :: n, y :: n', f, f', h1, h2, h => by
    simp only [List.cons_append, List.cons.injEq] at h
    obtain ⟨rfl, h⟩ := h
    obtain ⟨rfl, rfl⟩ := colon_split (fun h => h1 (List.mem_cons_of_mem _ h)) (fun h => h2 (List.mem_cons_of_mem _ h)) h
    exact ⟨rfl, rfl⟩

/-- The brace-free bytes a line begins with, and whether they name something. -/
inductive Starts : Tok → Bytes → Bool → Prop where
  | text {t : Bytes} : Starts (.text t) t false
  | plain {n : Bytes} : 0x3a ∉ n → Starts (.name n none) n true
  | call {n f : Bytes} : 0x3a ∉ n → Starts (.name n (some f)) (n ++ 0x3a :: f) true

theorem Tpl.Greedy.starts {a : Tok} {ts : List Tok} (hg : Greedy (a :: ts)) :
    a = .open1 ∨ a = .open2 ∨ a = .close1 ∨ a = .close2 ∨
    ∃ t k r, Starts a t k ∧ t ≠ [] ∧ 0x7b ∉ t ∧ 0x7d ∉ t ∧ AtBrace r ∧ (a :: ts).flatMap Tok.source = t ++ r ∧
      (k = true ↔ r.head? = some 0x7d ∧ (r.drop 1).head? ≠ some 0x7d) := by
  obtain ⟨hc, hf, hg⟩ := hg
  have after : Tok.Follows .close1 ts.head? → (ts.flatMap Tok.source).head? ≠ some 0x7d := by
    intro h e
    rcases hg.of_close e with e | e <;> rw [e] at h <;> exact h
  match a, hc, hf with
  | .open1, _, _ => exact .inl rfl
  | .open2, _, _ => exact .inr (.inl rfl)
  | .close1, _, _ => exact .inr (.inr (.inl rfl))
  | .close2, _, _ => exact .inr (.inr (.inr (.inl rfl)))
  | .text t, ⟨h1, h2, h3⟩, hf =>
    refine .inr (.inr (.inr (.inr ⟨t, false, _, .text, h1, h2, h3, ?_, List.flatMap_cons .., ?_⟩)))
    · intro x hx
      match ts, hf with
      | [], _ => simp at hx
      | .open1 :: _, _ => simp [Tok.source, utf8_lb] at hx; exact .inl hx.symm
      | .open2 :: _, _ => simp [Tok.source, utf8_lb2] at hx; exact .inl hx.symm
      | .close2 :: _, _ => simp [Tok.source, utf8_rb2] at hx; exact .inr hx.symm
    · refine ⟨fun h => (by cases h), fun ⟨h4, h5⟩ => ?_⟩
      match ts, hg, hf with
      | [], _, _ => simp at h4
      | .open1 :: _, _, _ => simp [Tok.source, utf8_lb] at h4
      | .open2 :: _, _, _ => simp [Tok.source, utf8_lb2] at h4
      | .close2 :: _, _, _ => simp [Tok.source, utf8_rb2] at h5
  | .name n none, ⟨h1, h2, h3, h4⟩, hf =>
    refine .inr (.inr (.inr (.inr ⟨n, true, 0x7d :: ts.flatMap Tok.source, .plain h4, h1, h2, h3, ?_, ?_, ?_⟩)))
    · intro x hx; simp at hx; exact .inr hx.symm
    · simp [Tok.source, utf8_rb]
    · exact ⟨fun _ => ⟨rfl, after (by
        revert hf; cases ts.head? with
        | none => exact id
        | some u => cases u <;> exact id)⟩, fun _ => rfl⟩
  | .name n (some f), ⟨h1, h2, h3, h4, h5⟩, hf =>
    refine .inr (.inr (.inr (.inr ⟨n ++ 0x3a :: f, true, 0x7d :: ts.flatMap Tok.source, .call h3, by simp,
      by simp [h1, h4], by simp [h2, h5], ?_, ?_, ?_⟩)))
    · intro x hx; simp at hx; exact .inr hx.symm
    · simp [Tok.source, utf8_rb, utf8_colon]
    · exact ⟨fun _ => ⟨rfl, after (by
        revert hf; cases ts.head? with
        | none => exact id
        | some u => cases u <;> exact id)⟩, fun _ => rfl⟩

theorem Starts.unique {a b : Tok} {t : Bytes} {k : Bool} (h : Starts a t k) (h' : Starts b t k) : a = b := by
  generalize ht : t = t' at h'
  cases h with
  | text => cases h' with
    | text => rw [ht]
  | plain hn => cases h' with
    | plain => rw [ht]
    | call => exact absurd (by simp) (ht ▸ hn)
  | call hn => cases h' with
    | plain hn' =>
      subst ht
      exact absurd (by simp) hn'
    | call hn' => obtain ⟨rfl, rfl⟩ := colon_split hn hn' ht; rfl

theorem Tpl.Greedy.head_unique {a b : Tok} {ts us : List Tok} (h : Greedy (a :: ts)) (h' : Greedy (b :: us))
    (e : (a :: ts).flatMap Tok.source = (b :: us).flatMap Tok.source) : a = b := by
  have ho : ∀ {a b : Tok} {ts us : List Tok}, Greedy (a :: ts) → Greedy (b :: us) →
      (a :: ts).flatMap Tok.source = (b :: us).flatMap Tok.source → a = .open1 ∨ a = .open2 → a = b := by
    intro a b ts us h h' e ha
    have hb := h'.of_open (by rw [← e]; rcases ha with rfl | rfl <;> simp [Tok.source, utf8_lb, utf8_lb2])
    simp only [List.head?_cons, Option.some.injEq] at hb
    rcases ha with rfl | rfl <;> rcases hb with rfl | rfl <;> try rfl
    · simp only [List.flatMap_cons, Tok.source, utf8_lb, utf8_lb2, List.cons_append, List.nil_append, List.cons.injEq, true_and] at e
      rcases h.2.2.of_open (by rw [e]; rfl) with q | q <;> exact absurd h.2.1 (by rw [q]; exact id)
    · simp only [List.flatMap_cons, Tok.source, utf8_lb, utf8_lb2, List.cons_append, List.nil_append, List.cons.injEq, true_and] at e
      rcases h'.2.2.of_open (by rw [← e]; rfl) with q | q <;> exact absurd h'.2.1 (by rw [q]; exact id)
  have hcl : ∀ {a b : Tok} {ts us : List Tok}, Greedy (a :: ts) → Greedy (b :: us) →
      (a :: ts).flatMap Tok.source = (b :: us).flatMap Tok.source → a = .close1 ∨ a = .close2 → a = b := by
    intro a b ts us h h' e ha
    have hb := h'.of_close (by rw [← e]; rcases ha with rfl | rfl <;> simp [Tok.source, utf8_rb, utf8_rb2])
    simp only [List.head?_cons, Option.some.injEq] at hb
    rcases ha with rfl | rfl <;> rcases hb with rfl | rfl <;> try rfl
    · simp only [List.flatMap_cons, Tok.source, utf8_rb, utf8_rb2, List.cons_append, List.nil_append, List.cons.injEq, true_and] at e
      rcases h.2.2.of_close (by rw [e]; rfl) with q | q <;> exact absurd h.2.1 (by rw [q]; exact id)
    · simp only [List.flatMap_cons, Tok.source, utf8_rb, utf8_rb2, List.cons_append, List.nil_append, List.cons.injEq, true_and] at e
      rcases h'.2.2.of_close (by rw [← e]; rfl) with q | q <;> exact absurd h'.2.1 (by rw [q]; exact id)
  rcases h.starts with ha | ha | ha | ha | ⟨t, k, r, s1, -, s3, s4, s5, s6, s7⟩
  · exact ho h h' e (.inl ha)
  · exact ho h h' e (.inr ha)
  · exact hcl h h' e (.inl ha)
  · exact hcl h h' e (.inr ha)
  rcases h'.starts with ha | ha | ha | ha | ⟨t', k', r', u1, -, u3, u4, u5, u6, u7⟩
  · exact (ho h' h e.symm (.inl ha)).symm
  · exact (ho h' h e.symm (.inr ha)).symm
  · exact (hcl h' h e.symm (.inl ha)).symm
  · exact (hcl h' h e.symm (.inr ha)).symm
  obtain ⟨rfl, rfl⟩ := brace_split s3 s4 u3 u4 s5 u5 (s6.symm.trans (e.trans u6))
  have : k = k' := by
    rw [Bool.eq_iff_iff]; exact s7.trans u7.symm
  subst this
  exact s1.unique u1

/-- **C53.** The greedy reading of a line is its only one. -/
theorem C53_one_reading {ts us : List Tok} (h : Greedy ts) (h' : Greedy us)
    (e : ts.flatMap Tok.source = us.flatMap Tok.source) : ts = us := by
  have ne : ∀ {a : Tok} {ts : List Tok}, Greedy (a :: ts) → (a :: ts).flatMap Tok.source ≠ [] := by
    intro a ts h
    rcases h.starts with rfl | rfl | rfl | rfl | ⟨t, k, r, -, s2, -, -, -, s6, -⟩
    · simp [Tok.source, utf8_lb]
    · simp [Tok.source, utf8_lb2]
    · simp [Tok.source, utf8_rb]
    · simp [Tok.source, utf8_rb2]
    · rw [s6]; simp [s2]
  induction ts generalizing us with
  | nil =>
    cases us with
    | nil => rfl
    | cons b us => exact absurd e.symm (ne h')
  | cons a ts ih =>
    cases us with
    | nil => exact absurd e (ne h)
    | cons b us =>
      obtain rfl := h.head_unique h' e
      rw [ih h.2.2 h'.2.2 (by simpa using e)]

/-- `a}}}` is the text `a`, a doubled brace and a single one, never a reference to `a`. -/
example (us : List Tok) (h : Greedy us) (e : us.flatMap Tok.source = utf8 "a}}}") :
    us = [.text (utf8 "a"), .close2, .close1] := by
  refine C53_one_reading h ?_ (e.trans (by decide +kernel))
  simp only [Greedy, Tok.Clean, Tok.Follows, List.head?, and_true]
  decide +kernel

/-- **C53.** A fragment made of any lines, read greedily, renders as the values of their tokens, each line
followed by a line feed: text stays, doubled braces are halved, text directly before a single closing
brace is replaced, other single braces vanish. -/
theorem C53_any_line (fm : FunctionMap φ) (crlf : Bool) (name : Bytes) (hu : IsUtf8 name)
    (hn : 0x0a ∉ name) (hr : name.getLast? ≠ some 0x0d) (lines : List (List Tok))
    (hl : ∀ l ∈ lines, Greedy l ∧ (∀ t ∈ l, t.Known fm) ∧ IsTextLine (l.flatMap Tok.source) ∧
      0x0a ∉ l.flatMap Tok.source) :
    ∃ t, Template.compileWith fm (fileText crlf ((utf8 "#fragment push " ++ name) ::
        (lines.map (·.flatMap Tok.source) ++ [utf8 "#fragment pop"]))) = .ok t ∧
      ∀ run vars, (Scope.mk t vars).render run [] [name] =
        concat (lines.flatMap fun l => l.map (Tok.value fm run vars) ++ [.ok (utf8 "\n")]) := by
  have body : ∀ (lines : List (List Tok)), (∀ l ∈ lines, Greedy l ∧ (∀ t ∈ l, t.Known fm) ∧
      IsTextLine (l.flatMap Tok.source) ∧ 0x0a ∉ l.flatMap Tok.source) →
      ∃ comps, (∀ cur : Fragment φ, compileLines fm ⟨[], [cur]⟩
          ((lines.map (·.flatMap Tok.source)).map (· ++ cr crlf)) =
            .ok ⟨[], [⟨cur.name, cur.content ++ comps⟩]⟩) ∧
        ∀ run vars, Template.renderComponents run vars comps =
          concat (lines.flatMap fun l => l.map (Tok.value fm run vars) ++ [.ok (utf8 "\n")]) := by
    intro lines hl
    induction lines with
    | nil => exact ⟨[], fun cur => by simp [compileLines], fun run vars => rfl⟩
    | cons l lines ih =>
      obtain ⟨comps, h1, h2⟩ := ih fun l h => hl l (by simp [h])
      obtain ⟨g1, g2, g3, -⟩ := hl l (by simp)
      obtain ⟨c, h3, h4⟩ := tokenise_toks fm g1 g2 [] .nil (.inl rfl)
      refine ⟨(c ++ [.newLine]) ++ comps, fun cur => ?_, fun run vars => ?_⟩
      · simp only [List.map_cons, compileLines]
        rw [compileLine_text fm crlf [] cur [] g3 h3, Res.bind_ok, h1]
        simp
      · rw [renderComponents_append, renderComponents_append, h4, h2, List.flatMap_cons, concat_append,
          concat_append]
        simp only [Template.renderComponents, Template.renderComponent, concat,
          show utf8 "\n" = [0x0a] by decide +kernel]
        cases concat (l.map (Tok.value fm run vars)) <;> simp
  obtain ⟨comps, h1, h2⟩ := body lines hl
  refine ⟨⟨[(name, ⟨name, comps⟩)], []⟩, ?_, fun run vars => ?_⟩
  · have hlf : ∀ l ∈ (utf8 "#fragment push " ++ name) ::
        (lines.map (·.flatMap Tok.source) ++ [utf8 "#fragment pop"]), 0x0a ∉ l := by
      intro l h
      simp only [List.mem_cons, List.mem_append, List.mem_map, List.not_mem_nil, or_false] at h
      rcases h with rfl | ⟨a, ha, rfl⟩ | rfl
      · rw [utf8_push, List.mem_append]
        exact fun hh => hh.elim (by decide) hn
      · exact (hl a ha).2.2.2
      · rw [utf8_pop]; decide
    have := splitLines_fileText crlf hlf []
    simp only [List.append_nil] at this
    rw [Template.compileWith, this, compileLines_append, List.map_cons, compileLines, utf8_push,
      compileLine_push fm crlf _ hu hr, Res.bind_ok, List.map_append, compileLines_append, h1]
    simp only [List.map_cons, List.map_nil, compileLines, utf8_pop, compileLine_pop, Res.bind_ok,
      List.nil_append]
    simp [splitLines, compileLines, compileLine, joinDots]
  · rw [Scope.render, Template.renderInternal]
    simp only [Template.fullName, if_true, List.lookup_cons, beq_self_eq_true, Res.ofOption_some,
      Res.bind_ok, h2, Template.renderInternal]
    cases concat (lines.flatMap fun l => l.map (Tok.value fm run vars) ++ [.ok (utf8 "\n")]) <;> simp

/-- **C53.** In particular a reference followed by `k + 1` doubled closing braces stays as it is written,
without its braces, followed by `k + 1` closing braces. -/
theorem C53_clash (fm : FunctionMap φ) (n : Bytes) (h : (Seg.ref n none).Legal fm) (k : Nat) :
    (Seg.ref n none).source ++ (List.replicate (k + 1) Seg.rbrace).flatMap Seg.source =
      (Tok.open1 :: Tok.text n :: (List.replicate (k + 1) Tok.close2 ++ [Tok.close1])).flatMap
        Tok.source ∧
    Greedy (Tok.open1 :: Tok.text n :: (List.replicate (k + 1) Tok.close2 ++ [Tok.close1])) ∧
    ∀ run vars, concat ((Tok.open1 :: Tok.text n ::
        (List.replicate (k + 1) Tok.close2 ++ [Tok.close1])).map (Tok.value fm run vars)) =
      .ok (n ++ List.replicate (k + 1) 0x7d) := by
  obtain ⟨h1, h2, h3, h4⟩ := h
  have src : ∀ k, [0x7d] ++ (List.replicate k Seg.rbrace).flatMap Seg.source =
      (List.replicate k Tok.close2 ++ [Tok.close1]).flatMap Tok.source := by
    intro k
    induction k with
    | zero => simp [Tok.source, utf8_rb]
    | succ k ih =>
      have e : List.replicate (k + 1) Tok.close2 ++ [Tok.close1] =
          Tok.close2 :: (List.replicate k Tok.close2 ++ [Tok.close1]) := rfl
      rw [e, List.flatMap_cons, ← ih, List.replicate_succ, List.flatMap_cons]
      simp [Seg.source, Tok.source, utf8_rb2]
  have greedy : ∀ k, Greedy (List.replicate k Tok.close2 ++ [Tok.close1]) := by
    intro k
    induction k with
    | zero => exact ⟨trivial, trivial, trivial⟩
    | succ k ih => exact ⟨trivial, trivial, ih⟩
  refine ⟨?_, ⟨trivial, trivial, ⟨h1, ?_, ?_⟩, trivial, greedy _⟩, fun run vars => ?_⟩
  · rw [List.flatMap_cons, List.flatMap_cons, ← src]
    simp [Seg.source, Tok.source, utf8_lb, utf8_rb]
  · exact fun hh => (h2 _ hh).1 rfl
  · exact fun hh => (h2 _ hh).2.1 rfl
  · have val : ∀ k, concat ((List.replicate k Tok.close2 ++ [Tok.close1]).map
        (Tok.value fm run vars)) = .ok (List.replicate k 0x7d) := by
      intro k
      induction k with
      | zero => rfl
      | succ k ih =>
        rw [List.replicate_succ, List.cons_append, List.map_cons, concat_cons, ih]
        simp [Tok.value, utf8_rb, List.replicate_succ]
    rw [List.map_cons, List.map_cons, concat_cons, concat_cons, val]
    simp [Tok.value]

example : Greedy [.text (utf8 "a"), .open1, .name (utf8 "x") none, .open2, .name (utf8 "y") none,
    .open1, .close1] := by
  simp only [Greedy, Tok.Clean, Tok.Follows, List.head?, and_true, true_and]
  decide +kernel

/-! ## C55: errors -/

theorem compile_opened (fm : FunctionMap φ) (crlf : Bool) (opened : List (Bytes × List Node))
    (h : ∀ o ∈ opened, IsUtf8 o.1 ∧ 0x0a ∉ o.1 ∧ o.1.getLast? ≠ some 0x0d ∧
      LegalNodes fm crlf true o.2) (st : List (Fragment φ)) :
    ∃ new st', st'.length = st.length + opened.length ∧
      ∀ frs, compileLines fm ⟨frs, st⟩ ((opened.flatMap fun (name, ns) =>
        (utf8 "#fragment push " ++ name) :: nodeLines ns).map (· ++ cr crlf)) =
          .ok ⟨new ++ frs, st'⟩ := by
  induction opened generalizing st with
  | nil => exact ⟨[], st, rfl, fun frs => rfl⟩
  | cons o opened ih =>
    obtain ⟨name, ns⟩ := o
    obtain ⟨h1, h2, h3, h4⟩ := h _ (List.mem_cons_self ..)
    obtain ⟨comps, n1, -, -, h5⟩ := compile_nodes fm crlf true ns h4 (⟨name, []⟩ :: st) (by simp)
    obtain ⟨n2, st', h6, h7⟩ := ih (fun o ho => h o (List.mem_cons_of_mem _ ho))
      (addTop comps (⟨name, []⟩ :: st))
    refine ⟨n2 ++ n1.reverse, st', ?_, fun frs => ?_⟩
    · rw [h6]; simp [addTop]; omega
    · rw [List.flatMap_cons, List.map_append, compileLines_append, List.map_cons, compileLines,
        utf8_push, compileLine_push fm crlf _ h1 h3, Res.bind_ok, h5, Res.bind_ok, ← utf8_push, h7]
      simp

theorem compile_start (fm : FunctionMap φ) (crlf : Bool) {closed : List Node}
    {opened : List (Bytes × List Node)} (h : LegalStart fm crlf closed opened) (rest : Bytes) :
    ∃ frs st, st.length = opened.length ∧
      Template.compileWith fm (fileText crlf (openLines closed opened) ++ rest) =
        (do let s ← compileLines fm ⟨frs, st⟩ (splitLines rest); .ok ⟨s.fragments, []⟩) := by
  obtain ⟨h1, h2⟩ := h
  obtain ⟨c, n1, -, -, h3⟩ := compile_nodes fm crlf false closed h1 [] (by simp)
  obtain ⟨n2, st, h4, h5⟩ := compile_opened fm crlf opened h2 (addTop c [])
  refine ⟨n2 ++ (n1.reverse ++ []), st, by simpa [addTop] using h4, ?_⟩
  rw [Template.compileWith, splitLines_fileText, compileLines_append, openLines, List.map_append,
    compileLines_append, h3, Res.bind_ok, h5, Res.bind_ok]
  intro l hl
  rw [openLines, List.mem_append, List.mem_flatMap] at hl
  rcases hl with hl | ⟨⟨name, ns⟩, ho, hl⟩
  · exact lf_nodes fm crlf false closed h1 l hl
  · obtain ⟨h6, h7, h8, h9⟩ := h2 _ ho
    rw [List.mem_cons] at hl
    rcases hl with rfl | hl
    · rw [utf8_push, List.mem_append]
      exact fun hh => hh.elim (by decide) h7
    · exact lf_nodes fm crlf true ns h9 l hl

theorem splitLines_rest {l rest : Bytes} (h : 0x0a ∉ l) (hr : IsRest rest) :
    ∃ ls, splitLines (l ++ rest) = l :: ls := by
  rcases hr with rfl | ⟨r, rfl⟩
  · refine ⟨[], ?_⟩
    rw [List.append_nil]
    induction l with
    | nil => rfl
    | cons c l ih =>
      simp only [List.mem_cons, not_or] at h
      simp [splitLines, ih h.2, Ne.symm h.1]
  · exact ⟨_, splitLines_append h r⟩

/-- **C55.** Closing a fragment when none is open is reported. -/
theorem C55_invalid_pop (fm : FunctionMap φ) (crlf : Bool) (closed : List Node)
    (h : LegalNodes fm crlf false closed) (junk rest : Bytes) (hj : 0x0a ∉ junk)
    (hr : IsRest rest) :
    Template.compileWith fm (fileText crlf (nodeLines closed) ++
      (utf8 "#fragment pop" ++ junk ++ rest)) = .err .invalidPop := by
  obtain ⟨frs, st, h1, h2⟩ := compile_start fm crlf (closed := closed) (opened := [])
    ⟨h, by simp⟩ (utf8 "#fragment pop" ++ junk ++ rest)
  simp only [openLines, List.flatMap_nil, List.append_nil] at h2
  obtain ⟨ls, h3⟩ := splitLines_rest (l := utf8 "#fragment pop" ++ junk) (rest := rest)
    (by rw [utf8_pop, List.mem_append]; exact fun hh => hh.elim (by decide) hj) hr
  rw [h2, h3, List.length_eq_zero_iff.mp h1, compileLines, utf8_pop]
  have e1 : popPrefix ++ junk ≠ [] := by simp [popPrefix]
  obtain ⟨j, e2⟩ : ∃ j, stripCr (popPrefix ++ junk) = popPrefix ++ j := by
    unfold stripCr
    split
    · refine ⟨junk.dropLast, ?_⟩
      cases junk with
      | nil => next hh => simp [popPrefix] at hh
      | cons c junk => rw [List.dropLast_append_of_ne_nil (by simp)]
    · exact ⟨junk, rfl⟩
  have e3 : pushPrefix.isPrefixOf (popPrefix ++ j) = false := by
    simp [pushPrefix, popPrefix, List.isPrefixOf]
  have e4 : popPrefix.isPrefixOf (popPrefix ++ j) = true := by simp
  simp [compileLine, e2, e3, show popPrefix ≠ [] by simp [popPrefix]]

/-- **C55.** A line of text outside all fragments is reported. -/
theorem C55_no_fragment (fm : FunctionMap φ) (crlf : Bool) (closed : List Node)
    (h : LegalNodes fm crlf false closed) (l rest : Bytes) (hl : IsTextLine l) (hlf : 0x0a ∉ l)
    (hr : IsRest rest) :
    Template.compileWith fm (fileText crlf (nodeLines closed) ++ (l ++ cr crlf ++ rest)) =
      .err .noFragment := by
  obtain ⟨frs, st, h1, h2⟩ := compile_start fm crlf (closed := closed) (opened := [])
    ⟨h, by simp⟩ (l ++ cr crlf ++ rest)
  simp only [openLines, List.flatMap_nil, List.append_nil] at h2
  obtain ⟨ls, h3⟩ := splitLines_rest (l := l ++ cr crlf) (rest := rest)
    (by cases crlf <;> simp [cr, hlf]) hr
  rw [h2, h3, List.length_eq_zero_iff.mp h1, compileLines]
  obtain ⟨g1, g2, g3, g4⟩ := hl
  rw [utf8_push] at g3
  rw [utf8_pop] at g4
  have h3' : pushPrefix.isPrefixOf l = false := by
    rw [Bool.eq_false_iff]; simpa using g3
  have h4' : popPrefix.isPrefixOf l = false := by
    rw [Bool.eq_false_iff]; simpa using g4
  simp [compileLine, g1, stripCr_cr crlf g2, h3', h4']

/-- **C55.** With `\r\n` line ends a blank line outside all fragments counts as text. -/
theorem C55_crlf_blank (fm : FunctionMap φ) (closed : List Node)
    (h : LegalNodes fm true false closed) (rest : Bytes) :
    Template.compileWith fm (fileText true (nodeLines closed) ++ 0x0d :: 0x0a :: rest) =
      .err .noFragment := by
  obtain ⟨frs, st, h1, h2⟩ := compile_start fm true (closed := closed) (opened := [])
    ⟨h, by simp⟩ (0x0d :: 0x0a :: rest)
  simp only [openLines, List.flatMap_nil, List.append_nil] at h2
  have := splitLines_append (l := [0x0d]) (by decide) rest
  rw [h2, show (0x0d :: 0x0a :: rest : Bytes) = [0x0d] ++ 0x0a :: rest from rfl, this,
    List.length_eq_zero_iff.mp h1, compileLines]
  rfl

theorem tokenise_segs_err (fm : FunctionMap φ) {segs : List Seg} (hl : ∀ s ∈ segs, s.Legal fm)
    (hn : NoClash segs) (e : TError) (tail : Bytes) (ht : tail.head? ≠ some 0x7d) (acc : Bytes)
    (ha : IsUtf8 acc)
    (he : ∀ acc, IsUtf8 acc → tokenise fm acc tail = .err e) :
    tokenise fm acc (segs.flatMap Seg.source ++ tail) = .err e := by
  induction segs generalizing acc with
  | nil => exact he acc ha
  | cons s segs ih =>
    have hs := hl s (by simp)
    have ih := ih (fun s hs => hl s (by simp [hs])) hn.tail
    rw [List.flatMap_cons, List.append_assoc]
    have hh : (∀ rest, segs ≠ .rbrace :: rest) →
        (segs.flatMap Seg.source ++ tail).head? ≠ some 0x7d := by
      intro hh
      have := head_of_segs fm (fun s hs => hl s (by simp [hs])) hh
      rw [List.head?_append]
      cases h : (segs.flatMap Seg.source).head? with
      | none => simpa using ht
      | some c => simpa [h] using this
    match s with
    | .text t =>
      obtain ⟨h1, h2, h3⟩ := hs
      rw [show (Seg.text t).source = t from rfl,
          tokenise_plain fm (fun c hc => ⟨(h2 c hc).1, (h2 c hc).2.1⟩)]
      exact ih _ (ha.append h3)
    | .lbrace =>
      rw [show (Seg.lbrace).source = [0x7b, 0x7b] from utf8_lb2, List.cons_append,
          List.cons_append, List.nil_append, tokenise_lb2,
          popConstant_ok (ha.append isUtf8_lb), ih _ .nil]
      simp
    | .rbrace =>
      rw [show (Seg.rbrace).source = [0x7d, 0x7d] from utf8_rb2, List.cons_append,
          List.cons_append, List.nil_append, tokenise_rb2,
          popConstant_ok (ha.append isUtf8_rb), ih _ .nil]
      simp
    | .ref n none =>
      obtain ⟨h1, h2, h3, h6⟩ := hs
      rw [show (Seg.ref n none).source ++ (segs.flatMap Seg.source ++ tail) =
            0x7b :: (n ++ 0x7d :: (segs.flatMap Seg.source ++ tail)) by
              simp [Seg.source, utf8_lb, utf8_rb],
          tokenise_ref fm acc ha (fun c hc => ⟨(h2 c hc).1, (h2 c hc).2.1⟩) h3 h1 (hh hn.head),
          ih _ .nil]
      simp [Component.parseVariable, splitAtByte_none h6]
    | .ref n (some f) =>
      obtain ⟨h2, h3, h6, h7, h8, g, h9⟩ := hs
      rw [show (Seg.ref n (some f)).source ++ (segs.flatMap Seg.source ++ tail) =
            0x7b :: ((n ++ 0x3a :: f) ++ 0x7d :: (segs.flatMap Seg.source ++ tail)) by
              simp [Seg.source, utf8_lb, utf8_rb, utf8_colon],
          tokenise_ref fm acc ha ?_ ?_ (by simp) (hh hn.head), ih _ .nil]
      · simp [Component.parseVariable, splitAtByte_some h6, h9]
      · intro c hc
        simp only [List.mem_append, List.mem_cons] at hc
        rcases hc with hc | rfl | hc
        · exact ⟨(h2 c hc).1, (h2 c hc).2.1⟩
        · decide
        · exact ⟨(h7 c hc).1, (h7 c hc).2.1⟩
      · exact h3.append (isUtf8_colon.append h8)

theorem compile_line_err (fm : FunctionMap φ) (crlf : Bool) {closed : List Node}
    {opened : List (Bytes × List Node)} (h : LegalStart fm crlf closed opened) (ho : opened ≠ [])
    {l rest : Bytes} (hl : IsTextLine l) (hlf : 0x0a ∉ l) (hr : IsRest rest) {e : TError}
    (he : tokenise fm [] l = .err e) :
    Template.compileWith fm (fileText crlf (openLines closed opened) ++ (l ++ cr crlf ++ rest)) =
      .err e := by
  obtain ⟨frs, st, h1, h2⟩ := compile_start fm crlf h (l ++ cr crlf ++ rest)
  obtain ⟨ls, h3⟩ := splitLines_rest (l := l ++ cr crlf) (rest := rest)
    (by cases crlf <;> simp [cr, hlf]) hr
  rw [h2, h3, compileLines]
  obtain ⟨g1, g2, g3, g4⟩ := hl
  rw [utf8_push] at g3
  rw [utf8_pop] at g4
  have h3' : pushPrefix.isPrefixOf l = false := by
    rw [Bool.eq_false_iff]; simpa using g3
  have h4' : popPrefix.isPrefixOf l = false := by
    rw [Bool.eq_false_iff]; simpa using g4
  cases st with
  | nil => exact absurd (List.length_eq_zero_iff.mp h1.symm) ho
  | cons c st => simp [compileLine, g1, stripCr_cr crlf g2, h3', h4', he]

/-- **C55.** A reference to an unregistered function is reported, with the name of the function. -/
theorem C55_unknown_function (fm : FunctionMap φ) (crlf : Bool) (closed : List Node)
    (opened : List (Bytes × List Node)) (h : LegalStart fm crlf closed opened) (ho : opened ≠ [])
    (segs : List Seg) (hs : ∀ s ∈ segs, s.Legal fm) (hn : NoClash segs) (n f tail rest : Bytes)
    (h1 : Plain n ∧ IsUtf8 n ∧ 0x3a ∉ n) (h2 : Plain f ∧ IsUtf8 f) (h3 : fm.lookup f = none)
    (ht : tail.head? ≠ some 0x7d)
    (hl : IsTextLine (segs.flatMap Seg.source ++ ((Seg.ref n (some f)).source ++ tail)))
    (hlf : 0x0a ∉ tail) (hr : IsRest rest) :
    Template.compileWith fm (fileText crlf (openLines closed opened) ++
      (segs.flatMap Seg.source ++ ((Seg.ref n (some f)).source ++ tail) ++ cr crlf ++ rest)) =
        .err (.functionNotFound f) := by
  have e : (Seg.ref n (some f)).source ++ tail = 0x7b :: ((n ++ 0x3a :: f) ++ 0x7d :: tail) := by
    simp [Seg.source, utf8_lb, utf8_rb, utf8_colon]
  refine compile_line_err fm crlf h ho hl ?_ hr ?_
  · rw [e, List.mem_append]
    have h1' : 0x0a ∉ n := fun hh => (h1.1 0x0a hh).2.2 rfl
    have h2' : 0x0a ∉ f := fun hh => (h2.1 0x0a hh).2.2 rfl
    simp [node_lf_free fm hs, h1', h2', hlf]
  · refine tokenise_segs_err fm hs hn _ _ (by simp [e]) [] .nil fun acc ha => ?_
    rw [e, tokenise_ref fm acc ha ?_ ?_ (by simp) ht]
    · simp [Component.parseVariable, splitAtByte_some h1.2.2, h3]
    · intro c hc
      simp only [List.mem_append, List.mem_cons] at hc
      rcases hc with hc | rfl | hc
      · exact ⟨(h1.1 c hc).1, (h1.1 c hc).2.1⟩
      · decide
      · exact ⟨(h2.1 c hc).1, (h2.1 c hc).2.1⟩
    · exact h1.2.1.append (isUtf8_colon.append h2.2)

/-- **C55.** Text that is not UTF-8 is reported. -/
theorem C55_invalid_utf8 (fm : FunctionMap φ) (crlf : Bool) (closed : List Node)
    (opened : List (Bytes × List Node)) (h : LegalStart fm crlf closed opened) (ho : opened ≠ [])
    (t rest : Bytes) (hp : Plain t) (hu : ¬ IsUtf8 t) (hl : IsTextLine t) (hr : IsRest rest) :
    Template.compileWith fm (fileText crlf (openLines closed opened) ++ (t ++ cr crlf ++ rest)) =
      .err .invalidUtf8 := by
  refine compile_line_err fm crlf h ho hl (fun hh => (hp _ hh).2.2 rfl) hr ?_
  have := tokenise_plain fm (fun c hc => ⟨(hp c hc).1, (hp c hc).2.1⟩) [] []
  rw [List.append_nil] at this
  rw [this, List.nil_append, tokenise, popConstant, popToken, if_neg hl.1, if_neg]
  · rfl
  · rw [validUtf8_iff]; exact hu

theorem popToken_ne_panic (t : Bytes) : popToken t ≠ .panic := by
  unfold popToken; split
  · simp
  · split <;> simp

theorem popConstant_ne_panic (t : Bytes) : (popConstant t : Res TError (List (Component φ))) ≠ .panic := by
  unfold popConstant
  refine Res.bind_ne_panic (popToken_ne_panic t) fun a _ => ?_
  cases a <;> simp

theorem popVariable_ne_panic (fm : FunctionMap φ) (t : Bytes) : popVariable fm t ≠ .panic := by
  unfold popVariable
  refine Res.bind_ne_panic (popToken_ne_panic t) fun a _ => ?_
  cases a with
  | none => simp
  | some t =>
    refine Res.bind_ne_panic ?_ fun _ _ => by simp
    unfold Component.parseVariable
    split
    · simp
    · refine Res.bind_ne_panic ?_ fun _ _ => by simp
      cases fm.lookup _ <;> simp

theorem tokenise_ne_panic (fm : FunctionMap φ) (l acc : Bytes) : tokenise fm acc l ≠ .panic := by
  induction hn : l.length using Nat.strongRecOn generalizing l acc with
  | ind n ih =>
    subst hn
    cases l with
    | nil => exact popConstant_ne_panic acc
    | cons c l =>
      have key : ∀ (x : Res TError (List (Component φ))) (l' : Bytes), x ≠ .panic →
          l'.length < (c :: l).length →
          (do let x ← x; let y ← tokenise fm [] l'; .ok (x ++ y)) ≠
            (.panic : Res TError (List (Component φ))) := fun x l' hx hl =>
        Res.bind_ne_panic hx fun _ _ =>
          Res.bind_ne_panic (ih _ hl l' [] rfl) fun _ _ => by simp
      rw [tokenise.eq_def]
      dsimp only
      split
      · split
        · split
          · exact key _ _ (popConstant_ne_panic _) (by simp; omega)
          · exact key _ _ (popConstant_ne_panic _) (by simp)
        · exact key _ _ (popConstant_ne_panic _) (by simp)
      · split
        · split
          · split
            · exact key _ _ (popConstant_ne_panic _) (by simp; omega)
            · exact key _ _ (popVariable_ne_panic fm _) (by simp)
          · exact key _ _ (popVariable_ne_panic fm _) (by simp)
        · exact ih _ (by simp) _ _ rfl

/-- **C55.** Compiling a template never panics, whatever its text. -/
theorem C55_compile_total (fm : FunctionMap φ) (data : Bytes) :
    Template.compileWith fm data ≠ .panic := by
  have hl : ∀ s line, compileLine fm s line ≠ .panic := by
    intro s line
    unfold compileLine
    split
    · simp
    · dsimp only
      split
      · split <;> simp
      · split
        · split <;> simp
        · split
          · simp
          · exact Res.bind_ne_panic (tokenise_ne_panic fm _ _) fun _ _ => by simp
  unfold Template.compileWith
  refine Res.bind_ne_panic ?_ fun _ _ => by simp
  generalize splitLines data = lines
  generalize (⟨[], []⟩ : CompileState φ) = s
  induction lines generalizing s with
  | nil => simp [compileLines]
  | cons l lines ih => exact Res.bind_ne_panic (hl s l) fun s' _ => ih s'

theorem concat_eq_ok (l : List (Res TError Bytes)) :
    (∃ b, concat l = .ok b) ↔ ∀ x ∈ l, ∃ b, x = .ok b := by
  induction l with
  | nil => simp [concat]
  | cons x l ih =>
    rw [List.forall_mem_cons, ← ih, concat_cons]
    simp only [Res.bind_eq_ok]
    constructor
    · rintro ⟨b, x, h1, y, h2, -⟩; exact ⟨⟨x, h1⟩, y, h2⟩
    · rintro ⟨⟨x, h1⟩, y, h2⟩; exact ⟨_, x, h1, y, h2, rfl⟩

/-- **C55.** Rendering a fragment succeeds exactly when all variables its own lines refer to are
defined (the functions themselves being total). -/
theorem C55_render_ok (fm : FunctionMap φ) (crlf : Bool) (ns : List Node)
    (h : LegalNodes fm crlf false ns) (t : Template φ)
    (ht : Template.compileWith fm (fileText crlf (nodeLines ns)) = .ok t)
    (run : φ → Bytes → Res TError Bytes) (hrun : ∀ f v, ∃ r, run f v = .ok r) (vars : Vars)
    (names : List Bytes) (body : List Node) (pre post : List (List Bytes × List Node))
    (hf : nodeFrags [] ns = pre ++ (names, body) :: post)
    (hp : ∀ q ∈ post, dotted q.1 ≠ dotted names) :
    (∃ r, (Scope.mk t vars).render run [] [dotted names] = .ok r) ↔
      ∀ n ∈ body, ∀ v ∈ n.vars, ∃ x, vars.lookup v = some x := by
  obtain ⟨t', h1, -, h2⟩ := C54_fragments fm crlf ns h
  rw [ht] at h1
  cases h1
  rw [h2 run vars pre names body post [] _ hf hp (.inl ⟨rfl, rfl⟩), concat_eq_ok]
  simp only [List.forall_mem_map]
  refine forall_congr' fun n => imp_congr_right fun _ => ?_
  match n with
  | .blank => simp [Node.value, Node.vars]
  | .frag _ _ => simp [Node.value, Node.vars]
  | .line segs =>
    rw [Node.value, concat_eq_ok]
    simp only [Node.vars, List.mem_append, List.mem_map, List.mem_singleton, List.mem_filterMap]
    constructor
    · rintro hh v ⟨s, hs, hv⟩
      obtain ⟨b, hb⟩ := hh _ (.inl ⟨s, hs, rfl⟩)
      match s, hv with
      | .ref m f, hv =>
        simp only [Option.some.injEq] at hv
        subst hv
        simp only [Seg.value] at hb
        cases hk : vars.lookup m with
        | none => simp [hk] at hb
        | some x => exact ⟨x, rfl⟩
    · rintro hh x (⟨s, hs, rfl⟩ | rfl)
      · match s with
        | .text _ => exact ⟨_, rfl⟩
        | .lbrace => exact ⟨_, rfl⟩
        | .rbrace => exact ⟨_, rfl⟩
        | .ref m f =>
          obtain ⟨x, hx⟩ := hh m ⟨_, hs, rfl⟩
          simp only [Seg.value, hx]
          cases f.bind (fun g => fm.lookup g) with
          | none => exact ⟨_, rfl⟩
          | some g => exact hrun g x
      · exact ⟨_, rfl⟩

/-- **C55.** A fragment that does not exist is reported under its full name. -/
theorem C55_missing_fragment (fm : FunctionMap φ) (crlf : Bool) (ns : List Node)
    (h : LegalNodes fm crlf false ns) (t : Template φ)
    (ht : Template.compileWith fm (fileText crlf (nodeLines ns)) = .ok t)
    (run : φ → Bytes → Res TError Bytes) (vars : Vars) (path name : Bytes) (more : List Bytes)
    (hp : path ≠ []) (hm : ∀ e ∈ nodeFrags [] ns, dotted e.1 ≠ path ++ utf8 "." ++ name)
    (hm' : ∀ e ∈ nodeFrags [] ns, dotted e.1 ≠ name) :
    (Scope.mk t vars).render run path (name :: more) =
        .err (.fragmentNotFound (path ++ utf8 "." ++ name)) ∧
      (Scope.mk t vars).render run [] (name :: more) = .err (.fragmentNotFound name) := by
  obtain ⟨new, h1, h2⟩ := compile_file fm crlf ns h
  rw [ht] at h2
  cases h2
  have key : ∀ k, (∀ e ∈ nodeFrags [] ns, dotted e.1 ≠ k) → new.reverse.lookup k = none := by
    intro k hk
    rw [List.lookup_eq_none_iff]
    intro y hy
    rw [List.mem_reverse] at hy
    obtain ⟨i, hi, rfl⟩ := List.getElem_of_mem hy
    have hi' : i < (nodeFrags [] ns).length := by rw [h1.length_eq]; exact hi
    have := (List.forall₂_iff_get.mp h1 |>.2 i hi' hi).1
    simp only [List.get_eq_getElem] at this
    rw [this]
    have := hk _ (List.getElem_mem hi')
    simpa using this.symm
  constructor
  · rw [Scope.render, Template.renderInternal,
      show Template.fullName path name = path ++ utf8 "." ++ name by
        rw [Template.fullName, if_neg hp, utf8_dot], key _ hm]
    rfl
  · rw [Scope.render, Template.renderInternal,
      show Template.fullName [] name = name from rfl, key _ hm']
    rfl

theorem concat_err {a b : List (Res TError Bytes)} {e : TError} (ha : ∀ x ∈ a, ∃ v, x = .ok v) :
    concat (a ++ .err e :: b) = .err e := by
  obtain ⟨x, hx⟩ := (concat_eq_ok a).mpr ha
  rw [concat_append, hx, concat_cons]
  rfl

/-- **C55.** The first undefined variable is the one reported. -/
theorem C55_missing_variable (fm : FunctionMap φ) (crlf : Bool) (ns : List Node)
    (h : LegalNodes fm crlf false ns) (t : Template φ)
    (ht : Template.compileWith fm (fileText crlf (nodeLines ns)) = .ok t)
    (run : φ → Bytes → Res TError Bytes) (hrun : ∀ f v, ∃ r, run f v = .ok r) (vars : Vars)
    (names : List Bytes) (body body' : List Node) (segs segs' : List Seg) (n : Bytes)
    (f : Option Bytes) (pre post : List (List Bytes × List Node))
    (hf : nodeFrags [] ns =
      pre ++ (names, body ++ .line (segs ++ .ref n f :: segs') :: body') :: post)
    (hp : ∀ q ∈ post, dotted q.1 ≠ dotted names)
    (hb : ∀ m ∈ body ++ [.line segs], ∀ v ∈ m.vars, ∃ x, vars.lookup v = some x)
    (hn : vars.lookup n = none) :
    (Scope.mk t vars).render run [] [dotted names] = .err (.variableNotFound n) := by
  obtain ⟨t', h1, -, h2⟩ := C54_fragments fm crlf ns h
  rw [ht] at h1
  cases h1
  rw [h2 run vars pre names _ post [] _ hf hp (.inl ⟨rfl, rfl⟩)]
  have seg : ∀ (segs : List Seg), (∀ v ∈ (Node.line segs).vars, ∃ x, vars.lookup v = some x) →
      ∀ x ∈ segs.map (Seg.value fm run vars), ∃ b, x = .ok b := by
    intro segs hs x hx
    obtain ⟨s, hs', rfl⟩ := List.mem_map.mp hx
    match s with
    | .text _ => exact ⟨_, rfl⟩
    | .lbrace => exact ⟨_, rfl⟩
    | .rbrace => exact ⟨_, rfl⟩
    | .ref m f =>
      obtain ⟨x, hx⟩ := hs m (by simp only [Node.vars, List.mem_filterMap]; exact ⟨_, hs', rfl⟩)
      simp only [Seg.value, hx]
      cases f.bind (fun g => fm.lookup g) with
      | none => exact ⟨_, rfl⟩
      | some g => exact hrun g x
  rw [List.map_append, List.map_cons]
  have e1 : Node.value fm run crlf vars (.line (segs ++ .ref n f :: segs')) =
      .err (.variableNotFound n) := by
    rw [Node.value, List.map_append, List.map_cons, List.append_assoc, List.cons_append]
    have : Seg.value fm run vars (.ref n f) = .err (.variableNotFound n) := by
      simp [Seg.value, hn]
    rw [this]
    exact concat_err (seg segs (hb _ (by simp)))
  rw [e1]
  refine concat_err ?_
  intro x hx
  obtain ⟨m, hm, rfl⟩ := List.mem_map.mp hx
  have := hb m (by simp [hm])
  match m with
  | .blank => exact ⟨_, rfl⟩
  | .frag _ _ => exact ⟨_, rfl⟩
  | .line segs =>
    rw [Node.value, concat_eq_ok]
    intro x hx
    rw [List.mem_append] at hx
    rcases hx with hx | hx
    · exact seg segs this x hx
    · rw [List.mem_singleton] at hx; exact ⟨_, hx⟩

/-- **C55.** The default functions fail only when capitalising text starting with a character of
several bytes, which panics. -/
theorem C55_functions (cm : CaseMap) (f : Fn) (v : Bytes) :
    (∃ r, f.run cm v = .ok r) ∨
      f.run cm v = .panic ∧ f = .capitalize ∧ ∃ c t, v = c :: t ∧ 0x80 ≤ c := by
  cases f with
  | upper => exact .inl ⟨_, rfl⟩
  | lower => exact .inl ⟨_, rfl⟩
  | capitalize =>
    cases v with
    | nil => exact .inl ⟨_, rfl⟩
    | cons c t =>
      simp only [Fn.run, capitalize]
      split
      · exact .inl ⟨_, rfl⟩
      · split
        · exact .inl ⟨_, rfl⟩
        · next h => exact .inr ⟨rfl, trivial, c, t, rfl, by simpa [UInt8.not_lt] using h⟩

/-- **C55.** The functions available by default. -/
theorem C55_defaults (f : Bytes) (g : Fn) : FunctionMap.default.lookup f = some g ↔
    f = utf8 "upper" ∧ g = .upper ∨ f = utf8 "lower" ∧ g = .lower ∨
      f = utf8 "capitalize" ∧ g = .capitalize := by
  have e1 : utf8 "upper" = [0x75, 0x70, 0x70, 0x65, 0x72] := by decide +kernel
  have e2 : utf8 "lower" = [0x6c, 0x6f, 0x77, 0x65, 0x72] := by decide +kernel
  have e3 : utf8 "capitalize" = [0x63, 0x61, 0x70, 0x69, 0x74, 0x61, 0x6c, 0x69, 0x7a, 0x65] := by
    decide +kernel
  rw [e1, e2, e3]
  unfold FunctionMap.default
  constructor
  · intro h
    simp only [List.lookup_cons] at h
    repeat' split at h
    all_goals simp_all
  · rintro (⟨rfl, rfl⟩ | ⟨rfl, rfl⟩ | ⟨rfl, rfl⟩) <;> rfl

/-- **C55.** Capitalising ASCII text changes the first byte only, from a lower case letter to the
corresponding upper case letter. -/
theorem C55_capitalize (c : UInt8) (t : Bytes) (h : c < 0x80) :
    capitalize (c :: t) =
      .ok ((if (utf8 "abcdefghijklmnopqrstuvwxyz").contains c then c - 32 else c) :: t) := by
  have e : utf8 "abcdefghijklmnopqrstuvwxyz" =
      [97, 98, 99, 100, 101, 102, 103, 104, 105, 106, 107, 108, 109, 110, 111, 112, 113, 114, 115,
       116, 117, 118, 119, 120, 121, 122] := by decide +kernel
  rw [e]
  have key : ∀ c : UInt8, (if ([97, 98, 99, 100, 101, 102, 103, 104, 105, 106, 107, 108, 109, 110,
      111, 112, 113, 114, 115, 116, 117, 118, 119, 120, 121, 122] : Bytes).contains c then c - 32
      else c) = if 0x41 ≤ c ∧ c ≤ 0x5a then c else asciiUpper c := by
    intro c
    have : ∀ n : Fin 256, (if ([97, 98, 99, 100, 101, 102, 103, 104, 105, 106, 107, 108, 109, 110,
      111, 112, 113, 114, 115, 116, 117, 118, 119, 120, 121, 122] : Bytes).contains (UInt8.ofNat n)
      then UInt8.ofNat n - 32 else UInt8.ofNat n) = if 0x41 ≤ UInt8.ofNat n ∧ UInt8.ofNat n ≤ 0x5a
      then UInt8.ofNat n else asciiUpper (UInt8.ofNat n) := by decide +kernel
    simpa using this ⟨c.toNat, c.toNat_lt⟩
  rw [key]
  simp only [capitalize, h, if_true]
  split <;> rfl

example : capitalize (utf8 "bar") = .ok (utf8 "Bar") := by
  rw [show utf8 "bar" = 0x62 :: utf8 "ar" by decide +kernel, C55_capitalize _ _ (by decide)]
  decide +kernel

/-! ## C56: scopes -/

/-- **C56.** After any history of settings, scope creations and clones, a variable of the template or
of a scope has the last value set there, or inherited when the scope was made; nothing else affects
it. -/
theorem C56_history (t : Template φ) (ht : t.variables = []) (h : List Op) (hl : OpsLegal h) :
    (runOps t h).1.fragments = t.fragments ∧
    (∀ k, (runOps t h).1.variables.lookup k = templateValue k h) ∧
    (runOps t h).2.length = scopeCount h ∧
    ∀ i s, (runOps t h).2[i]? = some s → s.template.fragments = t.fragments ∧
      ∀ k, s.variables.lookup k = scopeValue k h i := by
  induction h with
  | nil => simp [runOps, ht, templateValue, scopeCount]
  | cons o h ih =>
    match o, hl with
    | .setTemplate k v, hl =>
      obtain ⟨h1, h2, h3, h4⟩ := ih hl
      refine ⟨h1, fun k' => ?_, h3, h4⟩
      simp only [runOps, Template.var, List.lookup_cons, templateValue, h2]
      by_cases e : k' = k
      · simp [e]
      · have e' : (k' == k) = false := by simpa using e
        simp [e', Ne.symm e]
    | .newScope, hl =>
      obtain ⟨h1, h2, h3, h4⟩ := ih hl
      refine ⟨h1, h2, by simp [runOps, scopeCount, h3], fun i s hs => ?_⟩
      simp only [runOps] at hs
      by_cases hi : i = scopeCount h
      · subst hi
        rw [← h3, List.getElem?_concat_length] at hs
        cases hs
        refine ⟨h1, fun k => ?_⟩
        simp [scopeValue, Template.scope, h2]
      · have hi' : i < (runOps t h).2.length := by
          have := (List.getElem?_eq_some_iff.mp hs).1
          simp only [List.length_append, List.length_singleton] at this
          omega
        rw [List.getElem?_append_left hi'] at hs
        simpa [scopeValue, hi] using h4 i s hs
    | .clone j, hl =>
      obtain ⟨h1, h2, h3, h4⟩ := ih hl.2
      have hj : j < (runOps t h).2.length := by rw [h3]; exact hl.1
      have ej := List.getElem?_eq_getElem hj
      refine ⟨h1, h2, by simp [runOps, scopeCount, h3, ej], fun i s hs => ?_⟩
      simp only [runOps, ej, Option.toList_some] at hs
      by_cases hi : i = scopeCount h
      · subst hi
        rw [← h3, List.getElem?_concat_length] at hs
        cases hs
        simpa [scopeValue] using h4 j _ ej
      · have hi' : i < (runOps t h).2.length := by
          have := (List.getElem?_eq_some_iff.mp hs).1
          simp only [List.length_append, List.length_singleton] at this
          omega
        rw [List.getElem?_append_left hi'] at hs
        simpa [scopeValue, hi] using h4 i s hs
    | .set j k v, hl =>
      obtain ⟨h1, h2, h3, h4⟩ := ih hl.2
      refine ⟨h1, h2, by simp [runOps, scopeCount, h3], fun i s hs => ?_⟩
      simp only [runOps, List.getElem?_modify] at hs
      by_cases hi : j = i
      · subst hi
        simp only [if_true] at hs
        cases hk : (runOps t h).2[j]? with
        | none => simp [hk] at hs
        | some s0 =>
          rw [hk] at hs
          cases hs
          obtain ⟨h5, h6⟩ := h4 j s0 hk
          refine ⟨h5, fun k' => ?_⟩
          simp only [Scope.var, List.lookup_cons, scopeValue, h6]
          by_cases e : k' = k
          · simp [e]
          · have e' : (k' == k) = false := by simpa using e
            simp [e', Ne.symm e]
      · simp only [if_neg hi] at hs
        obtain ⟨h5, h6⟩ := h4 i s (by simpa using hs)
        exact ⟨h5, fun k' => by simp [scopeValue, hi, h6]⟩

/-- **C56.** What a scope renders depends on the fragments and on the current values of its
variables, not on how they came about. -/
theorem C56_render_congr (run : φ → Bytes → Res TError Bytes) (s s' : Scope φ)
    (hf : s.template.fragments = s'.template.fragments)
    (hv : ∀ k, s.variables.lookup k = s'.variables.lookup k) (path : Bytes) (names : List Bytes) :
    s.render run path names = s'.render run path names := by
  have hc : ∀ cs, Template.renderComponents run s.variables cs =
      Template.renderComponents run s'.variables cs := by
    intro cs
    induction cs with
    | nil => rfl
    | cons c cs ih =>
      have : Template.renderComponent run s.variables c =
          Template.renderComponent run s'.variables c := by
        cases c with
        | constant v => rfl
        | newLine => rfl
        | «variable» n f => simp only [Template.renderComponent, hv]
      rw [Template.renderComponents, Template.renderComponents, this, ih]
  unfold Scope.render
  induction names with
  | nil => rfl
  | cons n names ih => simp only [Template.renderInternal, hf, hc, ih]

/-- **C56.** Rendering to a variable sets that variable to what rendering gives, and fails when it
fails. -/
theorem C56_render_to_var (run : φ → Bytes → Res TError Bytes) (s : Scope φ) (path key : Bytes)
    (names : List Bytes) :
    s.renderToVar run path names key = (s.render run path names >>= fun r => .ok (s.var key r)) :=
  rfl

example : (runOps (⟨[], []⟩ : Template Fn) [.set 0 [1] [9], .newScope, .set 0 [1] [7], .clone 0,
    .newScope, .setTemplate [1] [5]]).2.map Scope.variables =
    [[([1], [9]), ([1], [7]), ([1], [5])], [([1], [5])], [([1], [5])]] := by decide +kernel

/-! Malformed templates and renders of the kinds above, after the template of the examples. -/

example : Template.compile (fileText false (nodeLines Ex.tpl) ++ (utf8 "#fragment pop" ++ [] ++ [])) =
    .err .invalidPop :=
  C55_invalid_pop FunctionMap.default false Ex.tpl Ex.tpl_legal [] [] (by decide) (.inl rfl)
example : Template.compile (fileText false (nodeLines Ex.tpl) ++ (utf8 "text" ++ [] ++ [])) =
    .err .noFragment :=
  C55_no_fragment FunctionMap.default false Ex.tpl Ex.tpl_legal (utf8 "text") []
    (by unfold IsTextLine; decide +kernel) (by decide +kernel) (.inl rfl)
example : Template.compile (fileText true (nodeLines []) ++ [0x0d, 0x0a]) = .err .noFragment :=
  C55_crlf_blank FunctionMap.default [] (by simp [LegalNodes]) []
example : Template.compile (fileText false (openLines Ex.tpl [(utf8 "c", [])]) ++
    ([Seg.lbrace].flatMap Seg.source ++ ((Seg.ref (utf8 "y") (some (utf8 "foo"))).source ++ []) ++ [] ++
      [])) = .err (.functionNotFound (utf8 "foo")) := by
  have hp : ∀ s : String, ((utf8 s).all fun c => c ≠ 0x7b ∧ c ≠ 0x7d ∧ c ≠ 0x0a) = true →
      Plain (utf8 s) := by
    intro s h c hc
    simpa using List.all_eq_true.mp h c hc
  exact C55_unknown_function FunctionMap.default false Ex.tpl [(utf8 "c", [])]
    ⟨Ex.tpl_legal, fun q hq => by
      rw [List.mem_singleton] at hq; subst hq
      exact ⟨utf8_isUtf8 _, by decide +kernel, by decide +kernel, by simp [LegalNodes]⟩⟩ (by simp)
    [.lbrace] (by simp [Seg.Legal]) (by simp [NoClash]) (utf8 "y") (utf8 "foo") [] []
    ⟨hp _ (by decide +kernel), utf8_isUtf8 _, by decide +kernel⟩
    ⟨hp _ (by decide +kernel), utf8_isUtf8 _⟩ (by decide +kernel) (by decide)
    (by unfold IsTextLine; decide +kernel) (by decide) (.inl rfl)
example : ∀ t, Template.compile (fileText false (nodeLines Ex.tpl)) = .ok t →
    (Scope.mk t []).render (Fn.run Ex.cm) (utf8 "a") [utf8 "zz"] =
      .err (.fragmentNotFound (utf8 "a.zz")) := fun t ht => by
  have h := (C55_missing_fragment FunctionMap.default false Ex.tpl Ex.tpl_legal t ht (Fn.run Ex.cm)
    [] (utf8 "a") (utf8 "zz") [] (by decide +kernel) (by decide +kernel) (by decide +kernel)).1
  rw [h]
  decide +kernel
example : ∀ t, Template.compile (fileText false (nodeLines Ex.tpl)) = .ok t →
    (Scope.mk t [(utf8 "y", [])]).render (fun _ v => .ok v) [] [utf8 "a"] =
      .err (.variableNotFound (utf8 "x")) := fun t ht =>
  C55_missing_variable FunctionMap.default false Ex.tpl Ex.tpl_legal t ht (fun _ v => .ok v)
    (fun _ v => ⟨v, rfl⟩) [(utf8 "y", [])] [utf8 "a"] [] _ [.text (utf8 "struct ")] _ (utf8 "x") none
    [([utf8 "a", utf8 "b"], _)] [] rfl (by simp) (by simp [Node.vars]) (by decide +kernel)

end Proto
