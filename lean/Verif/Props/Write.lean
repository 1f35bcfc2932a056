import Verif.Props.Seq
import Verif.Props.Send
import Verif.Runtime.Write

/-!
# C113, C114: output through `write`, and lists built in fixed storage
-/

namespace Proto.Props

open Proto Spec

/-! ## C113 -/

/-- What the documentation of `std::io::Write::write` asks of an implementation: a call that answers `Ok(n)` has
delivered the first `n` bytes of its argument, at most all of them; a call that answers an error has delivered
nothing. -/
def Honest (W : Writer σ) (received : σ → Bytes) : Prop :=
  ∀ b s, match W.write b s with
    | (.wrote n, s') => n ≤ b.length ∧ received s' = received s ++ b.take n
    | (.interrupted, s') => received s' = received s
    | (.failed, s') => received s' = received s
    | (.panic, _) => False

/-- From some state on the calls with the argument `b` are interrupted only finitely often in a row. -/
inductive Patient (W : Writer σ) (b : Bytes) : σ → Prop where
  | answers {s : σ} : (W.write b s).1 ≠ .interrupted → Patient W b s
  | again {s : σ} : (W.write b s).1 = .interrupted → Patient W b (W.write b s).2 → Patient W b s

theorem Writer.writeAll_mono (W : Writer σ) {k k' : Nat} (hk : k ≤ k') {b : Bytes} {s : σ} {x : R Unit × σ}
    (h : W.writeAll k b s = some x) : W.writeAll k' b s = some x := by
  induction k generalizing k' b s with
  | zero =>
    cases b with
    | nil => cases k' <;> exact h
    | cons a b => simp [Writer.writeAll] at h
  | succ k ih =>
    obtain ⟨j, rfl⟩ : ∃ j, k' = j + 1 := ⟨k' - 1, by omega⟩
    cases b with
    | nil => exact h
    | cons a b =>
      rw [Writer.writeAll] at h ⊢
      rcases hw : W.write (a :: b) s with ⟨ans, s'⟩
      rw [hw] at h
      cases ans with
      | wrote n =>
        dsimp only at h ⊢
        by_cases h0 : n = 0
        · rw [if_pos h0] at h ⊢; exact h
        · rw [if_neg h0] at h ⊢
          by_cases h1 : n ≤ (a :: b).length
          · rw [if_pos h1] at h ⊢; exact ih (by omega) h
          · rw [if_neg h1] at h ⊢; exact h
      | interrupted => exact ih (by omega) h
      | failed => exact h
      | panic => exact h

/-- C113: the result of encoding does not depend on how many calls of `write` one is prepared to wait for. -/
theorem C113_settled (W : Writer σ) (o : Out) (s : σ) {k k' : Nat} {x x' : R Unit × σ}
    (h : o.runOn W k s = some x) (h' : o.runOn W k' s = some x') : x = x' := by
  have mono : ∀ {k k' : Nat}, k ≤ k' → ∀ {cs : List Bytes} {s : σ} {x : R Unit × σ},
      W.runChunks k o.res cs s = some x → W.runChunks k' o.res cs s = some x := by
    intro k k' hk cs
    induction cs with
    | nil => intro s x h; exact h
    | cons c cs ih =>
      intro s x h
      rw [Writer.runChunks] at h ⊢
      cases hw : W.writeAll k c s with
      | none => rw [hw] at h; cases h
      | some y =>
        rw [Writer.writeAll_mono W hk hw]
        rw [hw] at h
        obtain ⟨r, s'⟩ := y
        cases r with
        | ok u => exact ih h
        | err e => exact h
        | panic => exact h
  have h1 := mono (Nat.le_max_left k k') h
  have h2 := mono (Nat.le_max_right k k') h'
  rw [h1] at h2
  exact Option.some.inj h2

theorem Writer.writeAll_honest {W : Writer σ} {received : σ → Bytes} (hW : Honest W received) {k : Nat} {b : Bytes}
    {s : σ} {r : R Unit} {s' : σ} (h : W.writeAll k b s = some (r, s')) :
    ∃ n, received s' = received s ++ b.take n ∧ ((r = .ok () ∧ b.length ≤ n) ∨ r = .err .io) := by
  induction k generalizing b s with
  | zero =>
    cases b with
    | nil => simp only [Writer.writeAll, Option.some.injEq, Prod.mk.injEq] at h
             obtain ⟨rfl, rfl⟩ := h; exact ⟨0, by simp, .inl ⟨rfl, by simp⟩⟩
    | cons a b => simp [Writer.writeAll] at h
  | succ k ih =>
    cases b with
    | nil => simp only [Writer.writeAll, Option.some.injEq, Prod.mk.injEq] at h
             obtain ⟨rfl, rfl⟩ := h; exact ⟨0, by simp, .inl ⟨rfl, by simp⟩⟩
    | cons a b =>
      rw [Writer.writeAll] at h
      have hon := hW (a :: b) s
      rcases hw : W.write (a :: b) s with ⟨ans, s1⟩
      rw [hw] at h hon
      cases ans with
      | wrote n =>
        dsimp only at h hon
        by_cases h0 : n = 0
        · rw [if_pos h0] at h
          simp only [Option.some.injEq, Prod.mk.injEq] at h
          obtain ⟨rfl, rfl⟩ := h
          exact ⟨n, hon.2, .inr rfl⟩
        · rw [if_neg h0, if_pos hon.1] at h
          obtain ⟨m, g1, g2⟩ := ih h
          refine ⟨n + m, ?_, ?_⟩
          · rw [g1, hon.2, List.append_assoc, List.take_add]
          · rcases g2 with ⟨g2, g3⟩ | g2
            · exact .inl ⟨g2, by rw [List.length_drop] at g3; omega⟩
            · exact .inr g2
      | interrupted =>
        dsimp only at h hon
        obtain ⟨m, g1, g2⟩ := ih h
        exact ⟨m, by rw [g1, hon], g2⟩
      | failed =>
        simp only [Option.some.injEq, Prod.mk.injEq] at h
        obtain ⟨rfl, rfl⟩ := h
        exact ⟨0, by simpa using hon, .inr rfl⟩
      | panic => exact hon.elim

/-- C113: whatever counts `write` answers and however often it is interrupted, the receiver has a prefix of the full
encoding; either everything arrived and the result is the encoder's own, or an I/O error is reported. -/
theorem C113_prefix {W : Writer σ} {received : σ → Bytes} (hW : Honest W received) (o : Out) (s : σ) {k : Nat}
    {r : R Unit} {s' : σ} (h : o.runOn W k s = some (r, s')) :
    ∃ n, received s' = received s ++ (o.run Sink.vec []).2.take n ∧
      ((r = (o.run Sink.vec []).1 ∧ (o.run Sink.vec []).2.length ≤ n) ∨ r = .err .io) := by
  rw [Out.run_vec]
  obtain ⟨cs, res⟩ := o
  simp only [Out.runOn, Out.bytes, List.nil_append] at h ⊢
  induction cs generalizing s with
  | nil =>
    simp only [Writer.runChunks, Option.some.injEq, Prod.mk.injEq] at h
    obtain ⟨rfl, rfl⟩ := h
    exact ⟨0, by simp, .inl ⟨rfl, by simp⟩⟩
  | cons c cs ih =>
    rw [Writer.runChunks] at h
    cases hw : W.writeAll k c s with
    | none => rw [hw] at h; cases h
    | some y =>
      obtain ⟨r1, s1⟩ := y
      rw [hw] at h
      obtain ⟨n, g1, g2⟩ := Writer.writeAll_honest hW hw
      rcases g2 with ⟨rfl, g2⟩ | rfl
      · obtain ⟨m, f1, f2⟩ := ih s1 h
        refine ⟨c.length + m, ?_, ?_⟩
        · rw [f1, g1, List.take_of_length_le g2, List.flatten_cons, List.take_length_add_append, List.append_assoc]
        · rcases f2 with ⟨f2, f3⟩ | f2
          · exact .inl ⟨f2, by simp only [List.flatten_cons, List.length_append]; omega⟩
          · exact .inr f2
      · simp only [Option.some.injEq, Prod.mk.injEq] at h
        obtain ⟨rfl, rfl⟩ := h
        refine ⟨min n c.length, ?_, .inr rfl⟩
        rw [g1, List.flatten_cons, List.take_append_of_le_length (by omega)]
        congr 1
        rw [List.take_eq_take_min]

/-- C113: if no call answers an error other than an interruption, or takes nothing, everything arrives and the result
is the encoder's own: short counts and interruptions are not noticed. -/
theorem C113_unnoticed {W : Writer σ} {received : σ → Bytes} (hW : Honest W received)
    (hok : ∀ b s, b ≠ [] → (W.write b s).1 ≠ .failed ∧ (W.write b s).1 ≠ .wrote 0) (o : Out) (s : σ) {k : Nat}
    {r : R Unit} {s' : σ} (h : o.runOn W k s = some (r, s')) :
    r = (o.run Sink.vec []).1 ∧ received s' = received s ++ (o.run Sink.vec []).2 := by
  have all : ∀ {k : Nat} {b : Bytes} {s : σ} {r : R Unit} {s' : σ}, W.writeAll k b s = some (r, s') →
      r = .ok () := by
    intro k
    induction k with
    | zero =>
      intro b s r s' h
      cases b with
      | nil => simp only [Writer.writeAll, Option.some.injEq, Prod.mk.injEq] at h; exact h.1.symm
      | cons a b => simp [Writer.writeAll] at h
    | succ k ih =>
      intro b s r s' h
      cases b with
      | nil => simp only [Writer.writeAll, Option.some.injEq, Prod.mk.injEq] at h; exact h.1.symm
      | cons a b =>
        rw [Writer.writeAll] at h
        have hon := hW (a :: b) s
        have hne := hok (a :: b) s (by simp)
        rcases hw : W.write (a :: b) s with ⟨ans, s1⟩
        rw [hw] at h hon hne
        cases ans with
        | wrote n =>
          dsimp only at h hon hne
          rw [if_neg (fun h0 => hne.2 (by rw [h0])), if_pos hon.1] at h
          exact ih h
        | interrupted => exact ih h
        | failed => exact absurd rfl hne.1
        | panic => exact hon.elim
  rw [Out.run_vec]
  obtain ⟨cs, res⟩ := o
  simp only [Out.runOn, Out.bytes, List.nil_append] at h ⊢
  induction cs generalizing s with
  | nil =>
    simp only [Writer.runChunks, Option.some.injEq, Prod.mk.injEq] at h
    exact ⟨h.1.symm, by rw [← h.2]; simp⟩
  | cons c cs ih =>
    rw [Writer.runChunks] at h
    cases hw : W.writeAll k c s with
    | none => rw [hw] at h; cases h
    | some y =>
      obtain ⟨r1, s1⟩ := y
      rw [hw] at h
      obtain ⟨n, g1, g2⟩ := Writer.writeAll_honest hW hw
      have hr := all hw
      subst hr
      obtain ⟨f1, f2⟩ := ih s1 h
      refine ⟨f1, ?_⟩
      rcases g2 with ⟨-, g2⟩ | g2
      · rw [f2, g1, List.take_of_length_le g2, List.flatten_cons, List.append_assoc]
      · cases g2

theorem Writer.writeAll_finishes {W : Writer σ} (hp : ∀ b s, b ≠ [] → Patient W b s) (b : Bytes) (s : σ) :
    ∃ k x, W.writeAll k b s = some x := by
  have key : ∀ (n : Nat) (b : Bytes) (s : σ), b.length ≤ n → ∃ k x, W.writeAll k b s = some x := by
    intro n
    induction n with
    | zero =>
      intro b s hb
      have : b = [] := List.length_eq_zero_iff.mp (by omega)
      subst this
      exact ⟨0, _, rfl⟩
    | succ n ih =>
      intro b s hb
      cases b with
      | nil => exact ⟨0, _, rfl⟩
      | cons a b =>
        have hpa := hp (a :: b) s (by simp)
        induction hpa with
        | @answers s hne =>
          rcases hw : W.write (a :: b) s with ⟨ans, s1⟩
          rw [hw] at hne
          cases ans with
          | wrote n' =>
            by_cases h0 : n' = 0
            · exact ⟨1, _, by rw [Writer.writeAll, hw]; dsimp only; rw [if_pos h0]⟩
            · by_cases h1 : n' ≤ (a :: b).length
              · obtain ⟨k, x, hk⟩ := ih ((a :: b).drop n') s1 (by rw [List.length_drop]; omega)
                exact ⟨k + 1, x, by rw [Writer.writeAll, hw]; dsimp only; rw [if_neg h0, if_pos h1, hk]⟩
              · exact ⟨1, _, by rw [Writer.writeAll, hw]; dsimp only; rw [if_neg h0, if_neg h1]⟩
          | interrupted => exact absurd rfl hne
          | failed => exact ⟨1, _, by rw [Writer.writeAll, hw]⟩
          | panic => exact ⟨1, _, by rw [Writer.writeAll, hw]⟩
        | @again s hi _ ihp =>
          obtain ⟨k, x, hk⟩ := ihp
          refine ⟨k + 1, x, ?_⟩
          rcases hw : W.write (a :: b) s with ⟨ans, s1⟩
          rw [hw] at hi hk
          simp only at hi hk
          subst hi
          rw [Writer.writeAll, hw]
          exact hk
  exact key b.length b s (Nat.le_refl _)

/-- C113: an output that claims to have taken more than it was given makes the encoder panic, whatever it did. -/
theorem C113_overclaimed {W : Writer σ} {chunk : Bytes} {cs : List Bytes} {r : R Unit} {s s' : σ} {n : Nat}
    (hc : chunk ≠ []) (hw : W.write chunk s = (.wrote n, s')) (hn : chunk.length < n) (k : Nat) :
    (Out.mk (chunk :: cs) r).runOn W (k + 1) s = some (.panic, s') := by
  cases chunk with
  | nil => exact absurd rfl hc
  | cons b bs =>
    have h0 : ¬ n = 0 := by omega
    have h1 : ¬ n ≤ (b :: bs).length := by omega
    simp only [Out.runOn, Writer.runChunks, Writer.writeAll, hw, if_neg h0, if_neg h1]

example (k : Nat) : (Out.mk [[1, 2], [3]] (.ok ())).runOn (⟨fun b s => (.wrote (b.length + 1), s ++ b)⟩ : Writer Bytes)
    (k + 1) [7] = some (.panic, [7, 1, 2]) := C113_overclaimed (by simp) rfl (by decide) k

/-- C113: encoding ends on every output whose calls are not interrupted for ever; and such an output, seen through
`write_all`, is one of those that the other properties speak about. -/
theorem C113_sink {W : Writer σ} (hp : ∀ b s, b ≠ [] → Patient W b s) :
    ∃ S : Sink σ, (∀ (o : Out) (s : σ) (x : R Unit × σ), o.run S s = x ↔ ∃ k, o.runOn W k s = some x) ∧
      ∀ received, Honest W received → Stream S received := by
  have hfin := Writer.writeAll_finishes hp
  have hchoose : ∃ f : Bytes → σ → R Unit × σ, ∀ b s, ∃ k, W.writeAll k b s = some (f b s) :=
    ⟨fun b s => (hfin b s).choose_spec.choose, fun b s => ⟨_, (hfin b s).choose_spec.choose_spec⟩⟩
  obtain ⟨f, hf⟩ := hchoose
  have mono : ∀ {r : R Unit} {k k' : Nat}, k ≤ k' → ∀ {cs : List Bytes} {s : σ} {x : R Unit × σ},
      W.runChunks k r cs s = some x → W.runChunks k' r cs s = some x := by
    intro r k k' hk cs
    induction cs with
    | nil => intro s x h; exact h
    | cons c cs ih =>
      intro s x h
      rw [Writer.runChunks] at h ⊢
      cases hw : W.writeAll k c s with
      | none => rw [hw] at h; cases h
      | some y =>
        rw [Writer.writeAll_mono W hk hw]
        rw [hw] at h
        obtain ⟨r, s'⟩ := y
        cases r with
        | ok u => exact ih h
        | err e => exact h
        | panic => exact h
  have run : ∀ (r : R Unit) (cs : List Bytes) (s : σ),
      ∃ k, W.runChunks k r cs s = some (Sink.runChunks ⟨f⟩ r cs s) := by
    intro r cs
    induction cs with
    | nil => intro s; exact ⟨0, rfl⟩
    | cons c cs ih =>
      intro s
      obtain ⟨k, hk⟩ := hf c s
      rcases hfc : f c s with ⟨r1, s1⟩
      rw [hfc] at hk
      cases r1 with
      | ok u =>
        obtain ⟨j, hj⟩ := ih s1
        refine ⟨max k j, ?_⟩
        rw [Writer.runChunks, Writer.writeAll_mono W (Nat.le_max_left k j) hk]
        dsimp only
        rw [mono (Nat.le_max_right k j) hj, Sink.runChunks]
        simp only [hfc]
      | err e => exact ⟨k, by rw [Writer.runChunks, hk, Sink.runChunks]; simp only [hfc]⟩
      | panic => exact ⟨k, by rw [Writer.runChunks, hk, Sink.runChunks]; simp only [hfc]⟩
  refine ⟨⟨f⟩, fun o s x => ⟨?_, ?_⟩, fun received hW b s => ?_⟩
  · rintro rfl
    exact run o.res o.chunks s
  · rintro ⟨k, hk⟩
    obtain ⟨j, hj⟩ := run o.res o.chunks s
    exact C113_settled W o s hj hk
  · obtain ⟨k, hk⟩ := hf b s
    exact Writer.writeAll_honest hW (r := (f b s).1) (s' := (f b s).2) hk

/-- C113: the counter of the size query, through its `write`, is the one used for C29. -/
theorem C113_counter (p : Profile) (o : Out) {n : Nat} (hn : n < 2 ^ 64) (k : Nat) :
    o.runOn (Writer.counter p) (k + 1) n = some (o.run (Sink.counter p) n) := by
  obtain ⟨cs, r⟩ := o
  simp only [Out.runOn, Out.run]
  induction cs generalizing n with
  | nil => rfl
  | cons c cs ih =>
    rw [Writer.runChunks, Sink.runChunks]
    cases c with
    | nil =>
      have e : (Sink.counter p).writeAll [] n = (.ok (), n) := by
        simp only [Sink.counter, usizeBits, List.length_nil, addU_ok p (show n + 0 < 2 ^ 64 from hn), Nat.add_zero]
      rw [e]
      exact ih hn
    | cons a c =>
      rw [Writer.writeAll]
      simp only [Writer.counter, Sink.counter]
      cases ha : (addU p usizeBits n (a :: c).length : R Nat) with
      | ok m =>
        have hm : m < 2 ^ 64 := by
          unfold addU usizeBits at ha
          split at ha
          · next h => cases ha; exact h
          · cases p with
            | checked => cases ha
            | wrapping => cases ha; exact Nat.mod_lt _ (by decide)
        dsimp only
        rw [if_neg (by simp), if_pos (Nat.le_refl _), List.drop_length]
        have e : Writer.writeAll (Writer.counter p) k [] m = some (.ok (), m) := by cases k <;> rfl
        rw [show (Writer.mk _ : Writer Nat) = Writer.counter p from rfl, e]
        exact ih hm
      | err e =>
        unfold addU at ha
        split at ha
        · cases ha
        · cases p <;> cases ha
      | panic => rfl

example (k : Nat) : (Varchar.writeTo .little 2 [1, 2, 3]).runOn (Writer.counter .checked) (k + 1) 7 =
    some (.ok (), 12) := C113_counter .checked _ (by decide) k

/-- C113: the size query, through the `write` of its counter, answers the number of bytes encoding into a growable
buffer appends. -/
theorem C113_size (p : Profile) (o : Out) (hmem : o.bytes.length < 2 ^ 64) (hok : o.res = .ok ()) (k : Nat) :
    o.runOn (Writer.counter p) (k + 1) 0 = some (.ok (), (o.run Sink.vec []).2.length) := by
  rw [C113_counter p o (by decide), Out.run_counter p o 0 (by omega), Out.run_vec, hok]
  simp

namespace Ex

/-- An output that takes at most two bytes at a time and is interrupted at every other call. -/
def slow : Writer (Bytes × Bool) :=
  ⟨fun b s =>
    if s.2 then (.interrupted, (s.1, false)) else (.wrote (min b.length 2), (s.1 ++ b.take (min b.length 2), true))⟩

theorem slow_honest : Honest slow Prod.fst := by
  rintro b ⟨l, i⟩
  cases i
  · simp [slow, Nat.min_le_left]
  · simp [slow]

theorem slow_patient (b : Bytes) (s : Bytes × Bool) : Patient slow b s := by
  obtain ⟨l, i⟩ := s
  cases i
  · exact .answers (by simp [slow])
  · exact .again (by simp [slow]) (.answers (by simp [slow]))

example : ∃ S : Sink (Bytes × Bool), (∀ (o : Out) s x, o.run S s = x ↔ ∃ k, o.runOn slow k s = some x) ∧
    Stream S Prod.fst :=
  (C113_sink (fun b s _ => slow_patient b s)).imp fun _ h => ⟨h.1, h.2 _ slow_honest⟩

example {k : Nat} {r : R Unit} {s' : Bytes × Bool}
    (h : (Varchar.writeTo .little 2 [1, 2, 3]).runOn slow k ([], true) = some (r, s')) :
    ∃ n, s'.1 = [3, 0, 1, 2, 3].take n ∧ ((r = .ok () ∧ 5 ≤ n) ∨ r = .err .io) :=
  C113_prefix slow_honest (Varchar.writeTo .little 2 [1, 2, 3]) ([], true) h

example {k : Nat} {x : R Unit × Bytes × Bool}
    (h : (Varchar.writeTo .little 2 [1, 2, 3]).runOn slow k ([], true) = some x) :
    x = (.ok (), ([3, 0, 1, 2, 3], true)) :=
  C113_settled slow _ _ h (k' := 4) (by decide)

example : (Varchar.writeTo .little 2 [1, 2, 3]).runOn slow 4 ([], true) = some (.ok (), ([3, 0, 1, 2, 3], true)) := by
  decide

example : ∀ r s', (Varchar.writeTo .little 2 [1, 2, 3]).runOn slow 9 ([], true) = some (r, s') →
    r = .ok () ∧ s'.1 = [3, 0, 1, 2, 3] := fun _ _ h =>
  C113_unnoticed slow_honest (by rintro (_ | ⟨b, bs⟩) ⟨l, _ | _⟩ h <;> simp [slow] at h ⊢)
    (Varchar.writeTo .little 2 [1, 2, 3]) ([], true) h

example (k : Nat) : (Varchar.writeTo .little 2 [1, 2, 3]).runOn (Writer.counter .checked) (k + 1) 0 =
    some (.ok (), 5) :=
  C113_size .checked (Varchar.writeTo .little 2 [1, 2, 3]) (by decide) rfl k

end Ex

/-- A client that writes messages to an output, stops when a write does not succeed and remembers the values of which
the write succeeded: what is to be written, the output before, the values remembered, the output after. -/
inductive Sends (W : Writer σ) (c : Ctx) (m : Message) : List Value → σ → List Value → σ → Prop where
  | done {s : σ} : Sends W c m [] s [] s
  | sent {v : Value} {vs sent : List Value} {s s' s'' : σ} {k : Nat} :
      (m.write c v).runOn W k s = some (.ok (), s') → Sends W c m vs s' sent s'' →
      Sends W c m (v :: vs) s (v :: sent) s''
  | stopped {v : Value} {vs : List Value} {s s' : σ} {k : Nat} {r : R Unit} :
      (m.write c v).runOn W k s = some (r, s') → r ≠ .ok () → Sends W c m (v :: vs) s [] s'

/-- C113: what arrives of the messages of a sender (C111), on any output whose `write` keeps its promise and is not
interrupted for ever: the sender comes to an end, and however the bytes are cut the receiver gets the values whose
writes succeeded, and at most the one whose write failed besides, that one only if all its bytes are there. -/
theorem C113_sent {W : Writer σ} (hp : ∀ b s, b ≠ [] → Patient W b s) {received : σ → Bytes}
    (hW : Honest W received) (c : Ctx) {m : Message} (hd : m.delimited c.emb = true) (hl : 1 ≤ m.least)
    {vs : List Value} (hv : ∀ v ∈ vs, m.Repr c v) {s : σ} (hs : received s = []) :
    (∃ sent s', Sends W c m vs s sent s') ∧
    ∀ {sent : List Value} {s' : σ}, Sends W c m vs s sent s' →
      ∀ {xs : List Bytes}, xs.flatten = received s' →
      ∃ lost, vs = sent ++ lost ∧
        ((receive (m.parse c) [] xs).1.flatten = sent ∨
          ∃ v rest, lost = v :: rest ∧ (receive (m.parse c) [] xs).1.flatten = sent ++ [v] ∧
            xs.flatten = (sent ++ [v]).flatMap fun v => (m.write c v).bytes) ∧
        (lost = [] → (receive (m.parse c) [] xs).2 = []) := by
  obtain ⟨S, h1, h2⟩ := C113_sink hp
  have e1 : ∀ (vs : List Value) (s : σ), Sends W c m vs s (send S c m vs s).1 (send S c m vs s).2 := by
    intro vs
    induction vs with
    | nil => intro s; exact .done
    | cons v vs ih =>
      intro s
      obtain ⟨k, hk⟩ := (h1 (m.write c v) s _).1 rfl
      rcases hr : (m.write c v).run S s with ⟨r, s1⟩
      rw [hr] at hk
      cases r with
      | ok u => simp only [send, hr]; exact .sent hk (ih s1)
      | err e => simp only [send, hr]; exact .stopped hk (by simp)
      | panic => simp only [send, hr]; exact .stopped hk (by simp)
  have e2 : ∀ {vs : List Value} {s : σ} {sent : List Value} {s' : σ}, Sends W c m vs s sent s' →
      send S c m vs s = (sent, s') := by
    intro vs s sent s' h
    induction h with
    | done => rfl
    | sent hk _ ih => simp only [send, (h1 _ _ _).2 ⟨_, hk⟩, ih]
    | @stopped v vs s s' k r hk hr =>
      simp only [send, (h1 _ _ _).2 ⟨_, hk⟩]
  refine ⟨⟨_, _, e1 vs s⟩, fun {sent s'} hsent {xs} hx => ?_⟩
  have e := e2 hsent
  have := C111_sent c hd hl (h2 received hW) hv hs (xs := xs) (by rw [e]; exact hx)
  rw [e] at this
  exact this

example : ∃ sent s', Sends Ex.slow Ex.ctx Ex.group [Ex.groupV, Ex.groupV] ([], true) sent s' :=
  (C113_sent (fun b s _ => Ex.slow_patient b s) Ex.slow_honest Ex.ctx (m := Ex.group) (by decide) (by decide)
    (vs := [Ex.groupV, Ex.groupV]) (by simpa using Ex.groupV_repr) (s := ([], true)) rfl).1

/-! ## C114 -/

/-- C114: the two ways to write to a fixed slice agree: its own `write_all`, and the one every implementation
inherits. -/
theorem C114_write_all (b : Bytes) (s : Fixed) (k : Nat) :
    Writer.fixed.writeAll (k + 2) b s = some (Sink.fixed.writeAll b s) := by
  cases b with
  | nil => simp [Writer.writeAll, Sink.fixed, Writer.fixed]
  | cons a b =>
    obtain ⟨f, r⟩ := s
    rw [Writer.writeAll]
    simp only [Sink.fixed, Writer.fixed]
    by_cases h : (a :: b).length ≤ r.length
    · rw [Nat.min_eq_left h, if_neg (by simp), if_pos (Nat.le_refl _), if_neg (Nat.lt_irrefl _), List.drop_length]
      rfl
    · rw [Nat.min_eq_right (by omega)]
      cases r with
      | nil => simp
      | cons x r =>
        rw [if_neg (by simp), if_pos (by omega), if_pos (by omega)]
        obtain ⟨y, ys, hy⟩ : ∃ y ys, (a :: b).drop (x :: r).length = y :: ys := by
          cases hd : (a :: b).drop (x :: r).length with
          | nil =>
            have := congrArg List.length hd
            rw [List.length_drop] at this
            simp only [List.length_nil] at this
            omega
          | cons y ys => exact ⟨y, ys, rfl⟩
        rw [hy, Writer.writeAll]
        simp

theorem Out.run_fixed_ge (o : Out) (s : Fixed) (h : o.bytes.length ≤ s.rest.length) :
    o.run Sink.fixed s = (o.res, ⟨s.filled ++ o.bytes, s.rest.drop o.bytes.length⟩) := by
  obtain ⟨cs, r⟩ := o
  simp only [Out.run, Out.bytes] at h ⊢
  induction cs generalizing s with
  | nil => simp [Sink.runChunks]
  | cons c cs ih =>
    simp only [List.flatten_cons, List.length_append] at h
    have e : Sink.fixed.writeAll c s = (.ok (), ⟨s.filled ++ c, s.rest.drop c.length⟩) := by
      simp only [Sink.fixed, Writer.fixed]
      rw [Nat.min_eq_left (by omega), if_neg (Nat.lt_irrefl _), List.take_length]
    simp only [Sink.runChunks, e]
    rw [ih _ (by simp only [List.length_drop]; omega)]
    simp [List.drop_drop]

theorem Out.run_fixed_lt (o : Out) (s : Fixed) (h : s.rest.length < o.bytes.length) :
    o.run Sink.fixed s = (.err .io, ⟨s.filled ++ o.bytes.take s.rest.length, []⟩) := by
  obtain ⟨cs, r⟩ := o
  simp only [Out.run, Out.bytes] at h ⊢
  induction cs generalizing s with
  | nil => simp at h
  | cons c cs ih =>
    simp only [List.flatten_cons, List.length_append] at h
    by_cases hc : c.length ≤ s.rest.length
    · have e : Sink.fixed.writeAll c s = (.ok (), ⟨s.filled ++ c, s.rest.drop c.length⟩) := by
        simp only [Sink.fixed, Writer.fixed]
        rw [Nat.min_eq_left (by omega), if_neg (Nat.lt_irrefl _), List.take_length]
      simp only [Sink.runChunks, e]
      rw [ih _ (by simp only [List.length_drop]; omega)]
      simp only [List.length_drop, List.flatten_cons, List.append_assoc]
      rw [List.take_append, List.take_of_length_le hc]
    · have e : Sink.fixed.writeAll c s = (.err .io, ⟨s.filled ++ c.take s.rest.length, []⟩) := by
        simp only [Sink.fixed, Writer.fixed]
        rw [Nat.min_eq_right (by omega), if_pos (by omega), List.drop_length]
      simp only [Sink.runChunks, e]
      rw [List.flatten_cons, List.take_append_of_le_length (by omega)]

/-- C114: a message written into a fixed slice: all of it if it fits, as the encoder reports; otherwise an I/O error,
and the slice is full of its beginning. -/
theorem C114_encode (o : Out) (storage : Bytes) :
    (o.bytes.length ≤ storage.length →
      o.run Sink.fixed ⟨[], storage⟩ = (o.res, ⟨o.bytes, storage.drop o.bytes.length⟩)) ∧
    (storage.length < o.bytes.length →
      o.run Sink.fixed ⟨[], storage⟩ = (.err .io, ⟨o.bytes.take storage.length, []⟩)) :=
  ⟨fun h => by simpa using Out.run_fixed_ge o ⟨[], storage⟩ h,
    fun h => by simpa using Out.run_fixed_lt o ⟨[], storage⟩ h⟩

/-- C114: writing items that fit to a list or array in a fixed slice counts them and puts them one after the other at
the front. -/
theorem C114_builder (w : α → Out) (l : Seq Fixed) (items : List α) (h : ∀ v ∈ items, (w v).res = .ok ())
    (hfit : (items.flatMap fun v => (w v).bytes).length ≤ l.data.rest.length) :
    l.writeItems Sink.fixed (items.map w) =
      (.ok (), ⟨⟨l.data.filled ++ items.flatMap (fun v => (w v).bytes),
        l.data.rest.drop (items.flatMap fun v => (w v).bytes).length⟩, l.len + items.length⟩) := by
  induction items generalizing l with
  | nil => simp [Seq.writeItems]
  | cons v vs ih =>
    rw [List.flatMap_cons, List.length_append] at hfit
    have hw : l.writeItem Sink.fixed (w v) = (.ok (), ⟨⟨l.data.filled ++ (w v).bytes,
        l.data.rest.drop (w v).bytes.length⟩, l.len + 1⟩) := by
      simp only [Seq.writeItem]
      rw [Out.run_fixed_ge _ _ (by omega), h v (by simp)]
    simp only [List.map_cons, Seq.writeItems, hw]
    rw [ih _ (fun x hx => h x (by simp [hx])) (by simp only [List.length_drop]; omega)]
    simp only [List.flatMap_cons, List.append_assoc, List.drop_drop, List.length_append, List.length_cons]
    rw [show l.len + 1 + vs.length = l.len + (vs.length + 1) by omega]

example : (Seq.new ⟨[], [0, 0, 0]⟩).writeItems Sink.fixed ([5, 6].map (Scalar.writeTo .little 1)) =
    (.ok (), ⟨⟨[5, 6], [0]⟩, 2⟩) := C114_builder (Scalar.writeTo .little 1) (Seq.new ⟨[], [0, 0, 0]⟩) [5, 6] (by decide) (by decide)

/-- C114: the first item that does not fit is an I/O error; those before it stay counted, the slice is full, and its
last part is the beginning of that item. -/
theorem C114_overfull (w : α → Out) (l : Seq Fixed) (items : List α) (v : α) (after : List α)
    (h : ∀ v ∈ items, (w v).res = .ok ())
    (hfit : (items.flatMap fun v => (w v).bytes).length ≤ l.data.rest.length)
    (hbig : l.data.rest.length < (items.flatMap fun v => (w v).bytes).length + (w v).bytes.length) :
    l.writeItems Sink.fixed ((items ++ v :: after).map w) =
      (.err .io, ⟨⟨l.data.filled ++ items.flatMap (fun v => (w v).bytes) ++
        (w v).bytes.take (l.data.rest.length - (items.flatMap fun v => (w v).bytes).length), []⟩,
        l.len + items.length⟩) := by
  induction items generalizing l with
  | nil =>
    simp only [List.flatMap_nil, List.length_nil, Nat.zero_add] at hbig
    simp only [List.nil_append, List.map_cons, Seq.writeItems, Seq.writeItem]
    rw [Out.run_fixed_lt _ _ hbig]
    simp
  | cons x xs ih =>
    rw [List.flatMap_cons, List.length_append] at hfit hbig
    have hw : l.writeItem Sink.fixed (w x) = (.ok (), ⟨⟨l.data.filled ++ (w x).bytes,
        l.data.rest.drop (w x).bytes.length⟩, l.len + 1⟩) := by
      simp only [Seq.writeItem]
      rw [Out.run_fixed_ge _ _ (by omega), h x (by simp)]
    simp only [List.cons_append, List.map_cons, Seq.writeItems, hw]
    rw [ih _ (fun y hy => h y (by simp [hy])) (by simp only [List.length_drop]; omega)
      (by simp only [List.length_drop]; omega)]
    simp only [List.flatMap_cons, List.append_assoc, List.length_append, List.length_cons, List.length_drop]
    rw [show l.len + 1 + xs.length = l.len + (xs.length + 1) by omega, Nat.sub_sub]

/-- C114: a list or array built in a fixed slice encodes as the number of its items followed by the part of the slice
that was *not* written. -/
theorem C114_rest (e : Endian) (sz : Nat) (w : α → Out) (storage : Bytes) (items : List α)
    (h : ∀ v ∈ items, (w v).res = .ok ()) (hfit : (items.flatMap fun v => (w v).bytes).length ≤ storage.length) :
    ∃ l, (Seq.new ⟨[], storage⟩).writeItems Sink.fixed (items.map w) = (.ok (), l) ∧ l.len = items.length ∧
      (l.inFixed.writeTo e sz).res = .ok () ∧
      (l.inFixed.writeTo e sz).bytes =
        wireInt e sz items.length ++ storage.drop (items.flatMap fun v => (w v).bytes).length := by
  refine ⟨_, C114_builder w (Seq.new ⟨[], storage⟩) items h hfit, by simp [Seq.new], rfl, ?_⟩
  rw [Seq.writeTo_bytes]
  simp [Seq.inFixed, Seq.new]

/-- C114: the full expectation, that a list built in a fixed slice encodes as one built in a growable buffer. -/
def C114_full : Prop :=
  ∀ (e : Endian) (sz : Nat) (w : Nat → Out) (storage : Bytes) (items : List Nat),
    (∀ v ∈ items, (w v).res = .ok ()) → (items.flatMap fun v => (w v).bytes).length ≤ storage.length →
    (((Seq.new ⟨[], storage⟩).writeItems Sink.fixed (items.map w)).2.inFixed.writeTo e sz).bytes =
      (((Seq.new []).writeItems Sink.vec (items.map w)).2.writeTo e sz).bytes

/-- C114: exactly when it does: when the part that was not written happens to hold the same bytes. -/
theorem C114_exact (e : Endian) (sz : Nat) (w : α → Out) (storage : Bytes) (items : List α)
    (h : ∀ v ∈ items, (w v).res = .ok ()) (hfit : (items.flatMap fun v => (w v).bytes).length ≤ storage.length) :
    (((Seq.new ⟨[], storage⟩).writeItems Sink.fixed (items.map w)).2.inFixed.writeTo e sz).bytes =
        (((Seq.new []).writeItems Sink.vec (items.map w)).2.writeTo e sz).bytes ↔
      storage.drop (items.flatMap fun v => (w v).bytes).length = items.flatMap fun v => (w v).bytes := by
  rw [C114_builder w (Seq.new ⟨[], storage⟩) items h hfit, C31_builder w (Seq.new []) items h, Seq.writeTo_bytes,
    Seq.writeTo_bytes]
  simp [Seq.inFixed, Seq.new]

example : (((Seq.new ⟨[], [0, 0, 5, 6]⟩).writeItems Sink.fixed ([5, 6].map (Scalar.writeTo .little 1))).2.inFixed.writeTo
      .little 1).bytes =
    (((Seq.new []).writeItems Sink.vec ([5, 6].map (Scalar.writeTo .little 1))).2.writeTo .little 1).bytes :=
  (C114_exact .little 1 (Scalar.writeTo .little 1) [0, 0, 5, 6] [5, 6] (by decide) (by decide)).2 rfl

/-- C114: the expectation is false. -/
theorem C114_full_false : ¬ C114_full := by
  intro h
  have := (C114_exact .little 1 (Scalar.writeTo .little 1) [0, 0, 0] [5, 6] (by decide) (by decide)).1
    (h .little 1 (Scalar.writeTo .little 1) [0, 0, 0] [5, 6] (by decide) (by decide))
  exact absurd this (by decide)

/-- C114: taking what was written, with the number of items, gives the list built in a growable buffer. -/
theorem C114_filled (w : α → Out) (storage : Bytes) (items : List α) (h : ∀ v ∈ items, (w v).res = .ok ())
    (hfit : (items.flatMap fun v => (w v).bytes).length ≤ storage.length) :
    ∃ l, (Seq.new ⟨[], storage⟩).writeItems Sink.fixed (items.map w) = (.ok (), l) ∧
      (Seq.new []).writeItems Sink.vec (items.map w) = (.ok (), ⟨l.data.filled, l.len⟩) ∧
      (l.data.filled ++ l.data.rest).length = storage.length := by
  refine ⟨_, C114_builder w (Seq.new ⟨[], storage⟩) items h hfit, ?_, ?_⟩
  · rw [C31_builder w (Seq.new []) items h]
    simp [Seq.new]
  · simp only [Seq.new, List.nil_append, List.length_append, List.length_drop]
    omega

example : ∃ l, (Seq.new ⟨[], [0, 0, 0]⟩).writeItems Sink.fixed ([5, 6].map (Scalar.writeTo .little 1)) = (.ok (), l) ∧
    l.len = 2 ∧ (l.inFixed.writeTo .little 1).res = .ok () ∧ (l.inFixed.writeTo .little 1).bytes = [2, 0] :=
  C114_rest .little 1 (Scalar.writeTo .little 1) [0, 0, 0] [5, 6] (by decide) (by decide)

example : (Seq.new ⟨[], [0, 0, 0]⟩).writeItems Sink.fixed ([5, 513].map (Scalar.writeTo .little 2)) =
    (.err .io, ⟨⟨[5, 0, 1], []⟩, 1⟩) :=
  C114_overfull (Scalar.writeTo .little 2) (Seq.new ⟨[], [0, 0, 0]⟩) [5] 513 [] (by decide) (by decide) (by decide)

end Proto.Props
