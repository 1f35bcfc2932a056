import Verif.Base.Lit
import Verif.Props.Count
import Verif.Spec.Receive

/-!
# C110: receiving messages in pieces
-/

namespace Proto

open Spec

section Drain

variable {f : Parser α} (hc : f.Cut) (hl : f.AtLeast 1)

include hc hl

theorem drain_enough {k : Nat} {b : Bytes} (h : b.length ≤ k) : drain f k b = decodeAll f b := by
  unfold decodeAll
  induction k using Nat.strongRecOn generalizing b with
  | ind k ih =>
    cases b with
    | nil =>
      have hn : ∀ m, f [] ≠ .ok m := by
        rintro ⟨n, v⟩ hm
        have := hl _ _ _ hm
        have := (hc _ _ _ hm).1
        rw [List.length_nil] at this; omega
      cases k with
      | zero => rfl
      | succ k =>
        simp only [drain, List.length_nil]
    | cons x t =>
      cases k with
      | zero => simp at h
      | succ k =>
        simp only [drain, List.length_cons]
        split
        · next m hm =>
          obtain ⟨n, v⟩ := m
          have h1 := hl _ _ _ hm
          have h2 := (hc _ _ _ hm).1
          simp only [List.length_cons] at h h2
          have e1 := ih k (by omega) (b := (x :: t).drop n) (by simp; omega)
          rcases Nat.lt_or_eq_of_le (Nat.le_of_lt_succ (Nat.lt_of_lt_of_le (Nat.lt_succ_self _) h)) with h3 | h3
          · have e2 := ih t.length (by omega) (b := (x :: t).drop n) (by simp; omega)
            simp only [e1, e2]
          · have : t.length = k := by omega
            rw [this]
        · rfl

theorem decodeAll_ok {b : Bytes} {n : Nat} {v : α} (h : f b = .ok ⟨n, v⟩) :
    decodeAll f b = (v :: (decodeAll f (b.drop n)).1, (decodeAll f (b.drop n)).2) := by
  have h1 := hl _ _ _ h
  have h2 := (hc _ _ _ h).1
  obtain ⟨k, hk⟩ : ∃ k, b.length = k + 1 := ⟨b.length - 1, by omega⟩
  have e : decodeAll f b = drain f (k + 1) b := by unfold decodeAll; rw [hk]
  rw [e]
  simp only [drain, h]
  rw [drain_enough hc hl (by rw [List.length_drop]; omega)]

theorem decodeAll_stuck {b : Bytes} (h : ∀ m, f b ≠ .ok m) : decodeAll f b = ([], b) := by
  unfold decodeAll
  cases hk : b.length with
  | zero => rfl
  | succ k =>
    simp only [drain]

theorem decodeAll_rest (b : Bytes) : ∀ m, f (decodeAll f b).2 ≠ .ok m := by
  induction hn : b.length using Nat.strongRecOn generalizing b with
  | ind n ih =>
    by_cases h : ∃ m, f b = .ok m
    · obtain ⟨⟨k, v⟩, h⟩ := h
      rw [decodeAll_ok hc hl h]
      have h1 := hl _ _ _ h
      have h2 := (hc _ _ _ h).1
      exact ih (b.drop k).length (by simp; omega) _ rfl
    · rw [decodeAll_stuck hc hl fun m hm => h ⟨m, hm⟩]
      exact fun m hm => h ⟨m, hm⟩

theorem decodeAll_append (hd : f.Delimits) (b t : Bytes) :
    decodeAll f (b ++ t) =
      ((decodeAll f b).1 ++ (decodeAll f ((decodeAll f b).2 ++ t)).1, (decodeAll f ((decodeAll f b).2 ++ t)).2) := by
  induction hn : b.length using Nat.strongRecOn generalizing b with
  | ind n ih =>
    by_cases h : ∃ m, f b = .ok m
    · obtain ⟨⟨k, v⟩, h⟩ := h
      have h1 := hl _ _ _ h
      have h2 := (hc _ _ _ h).1
      rw [decodeAll_ok hc hl (hd _ _ _ h t), List.drop_append_of_le_length h2,
        ih (b.drop k).length (by simp; omega) _ rfl, decodeAll_ok hc hl h]
      rfl
    · rw [decodeAll_stuck hc hl (b := b) fun m hm => h ⟨m, hm⟩]
      rfl

theorem receive_eq (hd : f.Delimits) {left : Bytes} (hs : ∀ m, f left ≠ .ok m) (xs : List Bytes) :
    ((receive f left xs).1.flatten, (receive f left xs).2) = decodeAll f (left ++ xs.flatten) := by
  induction xs generalizing left with
  | nil => simp [receive, decodeAll_stuck hc hl hs]
  | cons x xs ih =>
    simp only [receive, List.flatten_cons]
    rw [← List.append_assoc, decodeAll_append hc hl hd (left ++ x)]
    have := ih (decodeAll_rest hc hl (left ++ x))
    rw [← this]

end Drain

/-! ## Errors that more bytes do not change -/

/-- An error other than that of a short input stays whatever follows. -/
def Parser.Settled (f : Parser α) : Prop := ∀ b e, f b = .err e → e ≠ .truncated → ∀ t, f (b ++ t) = .err e

theorem Parser.Settled.map {f : Parser α} (h : f.Settled) {g : α → β} : (f.map g).Settled :=
  fun b e he hne t => Parser.map_eq_err.2 (h b e (Parser.map_eq_err.1 he) hne t)

theorem Scalar.settled (e : Endian) (sz : Nat) : (Scalar.fromSlice e sz).Settled := by
  intro b x h hne
  rw [Scalar.fromSlice_eq] at h
  by_cases hb : sz ≤ b.length
  · rw [if_pos hb] at h; cases h
  · rw [if_neg hb] at h; cases h; exact absurd rfl hne

theorem Structure.settled (s : Structure) : s.parse.Settled := by
  intro b x h hne
  unfold Structure.parse at h
  by_cases hb : b.length < s.byteSize
  · rw [if_pos hb] at h; cases h; exact absurd rfl hne
  · rw [if_neg hb] at h
    simp [Proto.slice, Nat.le_of_not_lt hb] at h

theorem NullTerminated.settled : NullTerminated.fromSlice.Settled := by
  intro b x h hne t
  cases hf : findNul b with
  | none => simp [fromSlice, hf] at h; exact absurd h.symm hne
  | some k =>
    obtain ⟨s, r, rfl, h0, rfl⟩ := findNul_eq_some.mp hf
    rw [fromSlice_split h0] at h
    rw [List.append_assoc, List.cons_append, fromSlice_split h0]
    exact h

theorem addU_ne_err {p : Profile} {n a b : Nat} {e : Error} : (addU p n a b : R Nat) ≠ .err e := by
  unfold addU
  split
  · simp
  · cases p <;> simp

theorem mulU_ne_err {p : Profile} {n a b : Nat} {e : Error} : (mulU p n a b : R Nat) ≠ .err e := by
  unfold mulU
  split
  · simp
  · cases p <;> simp

theorem Res.bind_eq_err {x : R α} {g : α → R β} {e : Error} :
    x.bind g = .err e ↔ x = .err e ∨ ∃ a, x = .ok a ∧ g a = .err e := by
  cases x <;> simp [Res.bind]

theorem Varchar.settled (p : Profile) (e : Endian) (sz : Nat) : (Varchar.fromSlice p e sz).Settled := by
  intro b x h hne t
  unfold Varchar.fromSlice at h ⊢
  rcases Res.bind_eq_err.1 h with h1 | ⟨m, h1, h⟩
  · exact Res.bind_eq_err.2 (.inl (Scalar.settled e sz b x h1 hne t))
  refine Res.bind_eq_err.2 (.inr ⟨m, Scalar.delimits e sz b m.size m.data h1 t, ?_⟩)
  rcases Res.bind_eq_err.1 h with h2 | ⟨n, h2, h⟩
  · exact absurd h2 addU_ne_err
  refine Res.bind_eq_err.2 (.inr ⟨n, h2, ?_⟩)
  rcases Res.bind_eq_err.1 h with h3 | ⟨s, h3, h⟩
  · exact absurd h3 slice_ne_err
  exact Res.bind_eq_err.2 (.inr ⟨s, slice_append h3, h⟩)

theorem Arr.settled (p : Profile) (e : Endian) (sz isz : Nat) : (Arr.fromSlice p e sz isz).Settled := by
  intro b x h hne t
  unfold Arr.fromSlice at h
  rcases Res.bind_eq_err.1 h with h1 | ⟨m, h1, h⟩
  · unfold Arr.fromSlice
    exact Res.bind_eq_err.2 (.inl (Scalar.settled e sz b x h1 hne t))
  rcases Res.bind_eq_err.1 h with h2 | ⟨n, h2, h⟩
  · exact absurd h2 mulU_ne_err
  rcases Res.bind_eq_err.1 h with h3 | ⟨k, h3, h⟩
  · exact absurd h3 addU_ne_err
  by_cases hb : b.length < k
  · rw [if_pos hb] at h; cases h; exact absurd rfl hne
  · rw [if_neg hb] at h
    rcases Res.bind_eq_err.1 h with h4 | ⟨s, h4, h⟩
    · exact absurd h4 slice_ne_err
    · cases h

theorem Lst.scanR_settled {f : Parser α} (hs : f.Settled) (hd : f.Delimits) (hc : f.Cut) {n : Nat} {b : Bytes}
    {e : Error} (h : scanR f n b = .err e) (hne : e ≠ .truncated) (t : Bytes) : scanR f n (b ++ t) = .err e := by
  induction n generalizing b with
  | zero => cases h
  | succ n ih =>
    simp only [scanR] at h ⊢
    cases hf : f b with
    | panic => rw [hf] at h; cases h
    | err x => rw [hf] at h; cases h; rw [hs b e hf hne t]
    | ok m =>
      rw [hf] at h
      rw [hd _ m.size m.data hf t]
      simp only at h ⊢
      rw [List.drop_append_of_le_length (hc _ m.size m.data hf).1]
      cases hr : scanR f n (b.drop m.size) with
      | ok k => rw [hr] at h; cases h
      | panic => rw [hr] at h; cases h
      | err x => rw [hr] at h; cases h; rw [ih hr]

theorem Lst.settled {f : Parser α} (hs : f.Settled) (hd : f.Delimits) (hc : f.Cut) (e : Endian) (sz : Nat) :
    (Lst.fromSlice e sz f).Settled := by
  intro b x h hne t
  rw [Lst.fromSlice_eq hc] at h ⊢
  by_cases hb : sz ≤ b.length
  · rw [if_pos hb] at h
    rw [if_pos (by simp; omega), List.take_append_of_le_length hb, List.drop_append_of_le_length hb]
    rcases Res.bind_eq_err.1 h with h1 | ⟨m, h1, h⟩
    · exact Res.bind_eq_err.2 (.inl (Lst.scanR_settled hs hd hc h1 hne t))
    · cases h
  · rw [if_neg hb] at h; cases h; exact absurd rfl hne

theorem Optional.settled {f : Parser α} (hs : f.Settled) : (Optional.fromSlice f).Settled := by
  intro b x h hne t
  cases b with
  | nil => simp only [Optional.fromSlice] at h; cases h; exact absurd rfl hne
  | cons y r =>
    simp only [Optional.fromSlice, List.cons_append] at h ⊢
    split at h
    · next hy =>
      rw [if_pos hy]
      rcases Res.bind_eq_err.1 h with h1 | ⟨m, h1, h⟩
      · exact Res.bind_eq_err.2 (.inl (hs r x h1 hne t))
      · cases h
    · cases h

theorem runFields_settled {step : MField → Env → Parser Value} {fs : List MField}
    (hc : ∀ f ∈ fs, ∀ env, (step f env).Cut) (hd : ∀ f ∈ fs, ∀ env, (step f env).Delimits)
    (hs : ∀ f ∈ fs, ∀ env, (step f env).Settled) {env : Env} {b : Bytes} {e : Error}
    (h : runFields step fs env b = .err e) (hne : e ≠ .truncated) (t : Bytes) :
    runFields step fs env (b ++ t) = .err e := by
  induction fs generalizing env b with
  | nil => cases h
  | cons f fs ih =>
    have hm := List.mem_cons_self (a := f) (l := fs)
    simp only [runFields] at h ⊢
    cases hf : step f env b with
    | panic => rw [hf] at h; cases h
    | err x => rw [hf] at h; cases h; rw [hs f hm env b e hf hne t]
    | ok m =>
      rw [hf] at h
      rw [hd f hm env _ m.size m.data hf t]
      simp only at h ⊢
      rw [List.drop_append_of_le_length (hc f hm env _ m.size m.data hf).1]
      cases hr : runFields step fs (env ++ [(f.name, m.data)]) (b.drop m.size) with
      | ok k => rw [hr] at h; cases h
      | panic => rw [hr] at h; cases h
      | err x =>
        rw [hr] at h; cases h
        rw [ih (fun f hf => hc f (List.mem_cons_of_mem _ hf)) (fun f hf => hd f (List.mem_cons_of_mem _ hf))
          (fun f hf => hs f (List.mem_cons_of_mem _ hf)) hr]

theorem settledInd (c : Ctx) : SchemaInd (fun m => m.delimited c.emb = true → (m.parse c).Settled)
    (fun t => ∀ emb e env, t.delimited c.emb emb = true → (t.parse c emb e env).Settled) where
  fixed ty emb e env _ := by simp only [MFieldTy.parse]; exact (Scalar.settled e _).map
  struct s emb e env _ := by simp only [MFieldTy.parse, Referenced.parse]; exact s.settled
  message m h emb e env hd := by
    simp only [MFieldTy.parse, Referenced.parse]
    simp only [MFieldTy.delimited, Referenced.delimited] at hd
    exact h hd
  nul emb e env _ := by simp only [MFieldTy.parse]; exact NullTerminated.settled.map
  varchar ty emb e env _ := by simp only [MFieldTy.parse]; exact (Varchar.settled _ _ _).map
  array ty s emb e env _ := by simp only [MFieldTy.parse]; exact (Arr.settled _ _ _ _).map
  union n d cs sz on i h emb e env hd := by
    simp only [MFieldTy.delimited, Union.delimited] at hd
    simp only [MFieldTy.parse]
    refine Union.parse_law (L := Parser.Settled) (fun v b x h => ?_) (fun e b x h _ t => h)
      (fun f i hf => hf.map) (fun k hk r hr => ?_) env on (fun _ b x h => ?_)
    · cases h
    · have := h k hk r hr emb e env (by
        simp only [MFieldTy.delimited]; exact UCase.listDelimited_mem hd k hk r hr)
      simpa only [MFieldTy.parse] using this
    · cases h
  list ty m h emb e env hd := by
    simp only [MFieldTy.delimited, Bool.and_eq_true] at hd
    simp only [MFieldTy.parse, hd.1, if_true]
    exact (Lst.settled (h hd.2) (Message.delimits hd.2) (Message.cut c m) e _).map
  payload emb e env hd := by simp [MFieldTy.delimited] at hd
  msg id n fs sz h hd := by
    simp only [Message.delimited] at hd
    have hm := MField.listDelimited_mem hd
    intro b x hx hne t
    rw [Message.parse_eq] at hx ⊢
    rcases Res.bind_eq_err.1 hx with h1 | ⟨r, _, h1⟩
    · refine Res.bind_eq_err.2 (.inl (runFields_settled (fun f _ env => MField.cut c _ f env)
        (fun f hf env => MField.optional_law ((delimitsInd c).ty _ _ _ _ (hm f hf))
          (fun _ => (Optional.delimits ((delimitsInd c).ty _ _ _ _ (hm f hf))).map))
        (fun f hf env => MField.optional_law (h f hf _ _ _ (hm f hf))
          (fun _ => (Optional.settled (h f hf _ _ _ (hm f hf))).map)) h1 hne t))
    · cases h1

namespace Props

/-! ## C110 -/

/-- C110: however the stream is cut into pieces, also if it is not one of messages, a client gets the
values, and is left with the bytes, that it would get and be left with from the whole stream. -/
theorem C110_pieces (c : Ctx) {m : Message} (hd : m.delimited c.emb = true) (hl : 1 ≤ m.least)
    (xs : List Bytes) :
    ((receive (m.parse c) [] xs).1.flatten, (receive (m.parse c) [] xs).2) = decodeAll (m.parse c) xs.flatten := by
  have hal : (m.parse c).AtLeast 1 := fun b k v h => Nat.le_trans hl (C102_least c m h)
  refine receive_eq (Message.cut c m) hal (Message.delimits hd) ?_ xs
  rintro ⟨n, v⟩ h
  have := hal _ _ _ h
  have := (Message.cut c m _ _ _ h).1
  simp at this; omega

example : ((receive (Ex.group.parse Ex.ctx) [] [[2, 1, 2], [1, 104, 105], [], [0, 7, 0, 0, 0, 1], [0]]).1.map
      List.length, (receive (Ex.group.parse Ex.ctx) [] [[2, 1, 2], [1, 104, 105], [], [0, 7, 0, 0, 0, 1], [0]]).2) =
    ([0, 0, 0, 2, 0], [1, 0]) := by krfl

example (xs : List Bytes) (h : xs.flatten = [2, 1, 2, 1, 104, 105, 0, 7, 0, 0, 0, 1, 0]) :
    (receive (Ex.group.parse Ex.ctx) [] xs).2 = [1, 0] := by
  have := congrArg Prod.snd (C110_pieces Ex.ctx (m := Ex.group) (by decide) (by decide) xs)
  rw [h] at this
  exact this.trans (by krfl)

/-- C110: of a stream of valid messages, at any time, a client has got those that arrived whole, in order,
and is left with the part that arrived of the one after them; if no string is length prefixed it can tell
from the error that it has to wait. -/
theorem C110_delivered (c : Ctx) {m : Message} (hd : m.delimited c.emb = true) (hl : 1 ≤ m.least)
    {vs : List Value} (hv : ∀ v ∈ vs, m.Repr c v) {k : Nat} {xs : List Bytes}
    (hx : xs.flatten = (vs.flatMap fun v => (m.write c v).bytes).take k) :
    ∃ got wait, vs = got ++ wait ∧ (receive (m.parse c) [] xs).1.flatten = got ∧
      xs.flatten = (got.flatMap fun v => (m.write c v).bytes) ++ (receive (m.parse c) [] xs).2 ∧
      match wait with
      | [] => (receive (m.parse c) [] xs).2 = []
      | v :: _ => ∃ i < (m.write c v).bytes.length,
          (receive (m.parse c) [] xs).2 = (m.write c v).bytes.take i ∧
          (m.allFields MField.notVarchar = true → m.parse c (receive (m.parse c) [] xs).2 = .err .truncated) := by
  have hal : (m.parse c).AtLeast 1 := fun b k v h => Nat.le_trans hl (C102_least c m h)
  have hp := C110_pieces c hd hl xs
  rw [Prod.ext_iff] at hp
  obtain ⟨h1, h2⟩ := hp
  simp only at h1 h2
  rw [h1, h2, hx]
  clear h1 h2 hx
  induction vs generalizing k with
  | nil => exact ⟨[], [], rfl, by simp [decodeAll, drain], by simp [decodeAll, drain], by simp [decodeAll, drain]⟩
  | cons v vs ih =>
    have hr := hv v (List.mem_cons_self ..)
    rw [List.flatMap_cons]
    rcases Nat.lt_or_ge k (m.write c v).bytes.length with hk | hk
    · rw [List.take_append_of_le_length (Nat.le_of_lt hk),
        decodeAll_stuck (Message.cut c m) hal (fun r => C26_prefix c hd hr hk r)]
      exact ⟨[], v :: vs, rfl, rfl, rfl, k, hk, rfl, fun hs => C26_truncated c hd hs hr hk⟩
    · rw [List.take_append, List.take_of_length_le hk,
        decodeAll_ok (Message.cut c m) hal (C23_trailing c hd hr _), List.drop_left]
      obtain ⟨got, wait, e, e1, e2, e3⟩ := ih (fun v h => hv v (List.mem_cons_of_mem _ h))
        (k := k - (m.write c v).bytes.length)
      refine ⟨v :: got, wait, by rw [e]; rfl, by simp only [e1], ?_, e3⟩
      simp only [List.flatMap_cons, List.append_assoc]
      rw [← e2]

/-- Thirteen bytes of a stream of two messages of ten bytes, cut in any way. -/
example {xs : List Bytes} (hx : xs.flatten =
      ([Ex.groupV, Ex.groupV].flatMap fun v => (Ex.group.write Ex.ctx v).bytes).take 13) :
    (receive (Ex.group.parse Ex.ctx) [] xs).1.flatten = [Ex.groupV] ∧
    Ex.group.parse Ex.ctx (receive (Ex.group.parse Ex.ctx) [] xs).2 = .err .truncated := by
  have hl : (Ex.group.write Ex.ctx Ex.groupV).bytes.length = 10 := by krfl
  obtain ⟨got, wait, h, h1, h2, h3⟩ := C110_delivered Ex.ctx (m := Ex.group) (by decide) (by decide)
    (by simpa using Ex.groupV_repr) hx
  rw [hx] at h2
  have h2 := congrArg List.length h2
  simp only [List.length_append, List.length_take, List.length_flatMap, List.map_cons, List.map_nil, hl,
    List.sum_cons, List.sum_nil] at h2
  match got, wait, h with
  | [], _, rfl =>
    obtain ⟨i, hi, hr, _⟩ := h3
    simp only [List.map_nil, List.sum_nil, hr, List.length_take, hl] at h2
    omega
  | [_], _, rfl =>
    obtain ⟨i, hi, hr, ht⟩ := h3
    exact ⟨h1, ht (by decide)⟩
  | [_, _], _, rfl =>
    simp only [List.map_cons, List.map_nil, List.sum_cons, List.sum_nil, hl] at h2
    omega

/-- With a length prefixed string a client cannot try to decode what has not arrived whole. -/
example : Ex.full.parse Ex.ctx ((Ex.full.write Ex.ctx Ex.fullV).bytes.take 26) = .panic := by krfl

/-- C110: an error other than that of a short input stays whatever is received. -/
theorem C110_final (c : Ctx) {m : Message} (hd : m.delimited c.emb = true) {b : Bytes} {e : Error}
    (h : m.parse c b = .err e) (hne : e ≠ .truncated) (t : Bytes) : m.parse c (b ++ t) = .err e :=
  (settledInd c).all m hd b e h hne t

example (t : Bytes) : Ex.group.parse Ex.ctx ([2, 1, 2, 1, 255, 0] ++ t) = .err .invalidUtf8 :=
  C110_final Ex.ctx (by decide) (by krfl) (by decide) t

end Props

end Proto
