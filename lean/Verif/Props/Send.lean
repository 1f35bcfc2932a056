import Verif.Props.Receive
import Verif.Spec.Send

/-!
# C111: what arrives of the messages of a sender that fails
-/

namespace Proto

open Spec

/-- What the stream of a sender holds: the messages reported as sent and some bytes of the next. -/
theorem send_received {S : Sink σ} {received : σ → Bytes} (hS : Props.Stream S received) {c : Ctx} {m : Message}
    {vs : List Value} (hv : ∀ v ∈ vs, m.Repr c v) (s : σ) :
    ∃ lost n, vs = (send S c m vs s).1 ++ lost ∧
      received (send S c m vs s).2 = received s ++ ((send S c m vs s).1.flatMap fun v => (m.write c v).bytes) ++
        match lost with
        | [] => []
        | v :: _ => (m.write c v).bytes.take n := by
  induction vs generalizing s with
  | nil => exact ⟨[], 0, rfl, by simp [send]⟩
  | cons v vs ih =>
    obtain ⟨n, h1, h2⟩ := Props.C30_any_stream S received hS (m.write c v) s
    rw [Out.run_vec] at h1 h2
    simp only [List.nil_append] at h1 h2
    have hr := (Message.roundTrips c m v (hv v (List.mem_cons_self ..))).1
    rw [hr] at h2
    rw [send]
    cases hw : (m.write c v).run S s with
    | mk r s1 =>
      rw [hw] at h1 h2
      simp only at h1 h2
      rcases h2 with ⟨rfl, h2⟩ | rfl
      · obtain ⟨lost, k, e1, e2⟩ := ih (fun v h => hv v (List.mem_cons_of_mem _ h)) s1
        refine ⟨lost, k, by simp only [List.cons_append, ← e1], ?_⟩
        simp only
        rw [e2, h1, List.take_of_length_le h2, List.flatMap_cons]
        simp only [List.append_assoc]
      · exact ⟨v :: vs, n, rfl, by simp only [h1, List.flatMap_nil, List.append_nil]⟩

theorem decodeAll_messages {c : Ctx} {m : Message} (hd : m.delimited c.emb = true) (hl : 1 ≤ m.least)
    {vs : List Value} (hv : ∀ v ∈ vs, m.Repr c v) (t : Bytes) :
    decodeAll (m.parse c) ((vs.flatMap fun v => (m.write c v).bytes) ++ t) =
      (vs ++ (decodeAll (m.parse c) t).1, (decodeAll (m.parse c) t).2) := by
  have hal : (m.parse c).AtLeast 1 := fun b k v h => Nat.le_trans hl (Props.C102_least c m h)
  induction vs with
  | nil => rfl
  | cons v vs ih =>
    rw [List.flatMap_cons, List.append_assoc,
      decodeAll_ok (Message.cut c m) hal (Props.C23_trailing c hd (hv v (List.mem_cons_self ..)) _),
      List.drop_left, ih fun v h => hv v (List.mem_cons_of_mem _ h)]
    rfl

namespace Props

/-! ## C111 -/

/-- C111: whatever happens to the stream, however it is cut, the receiver gets the values whose writes
succeeded, in order, and at most the one whose write failed besides, that one only if all its bytes are
there. -/
theorem C111_sent (c : Ctx) {m : Message} (hd : m.delimited c.emb = true) (hl : 1 ≤ m.least)
    {S : Sink σ} {received : σ → Bytes} (hS : Stream S received) {vs : List Value} (hv : ∀ v ∈ vs, m.Repr c v)
    {s : σ} (hs : received s = []) {xs : List Bytes} (hx : xs.flatten = received (send S c m vs s).2) :
    ∃ lost, vs = (send S c m vs s).1 ++ lost ∧
      ((receive (m.parse c) [] xs).1.flatten = (send S c m vs s).1 ∨
        ∃ v rest, lost = v :: rest ∧ (receive (m.parse c) [] xs).1.flatten = (send S c m vs s).1 ++ [v] ∧
          xs.flatten = ((send S c m vs s).1 ++ [v]).flatMap fun v => (m.write c v).bytes) ∧
      (lost = [] → (receive (m.parse c) [] xs).2 = []) := by
  have hal : (m.parse c).AtLeast 1 := fun b k v h => Nat.le_trans hl (C102_least c m h)
  obtain ⟨lost, n, h1, h2⟩ := send_received hS hv s
  have hsent : ∀ v ∈ (send S c m vs s).1, m.Repr c v := fun v h => hv v (h1 ▸ List.mem_append_left _ h)
  have hp := C110_pieces c hd hl xs
  rw [hx, h2, hs, List.nil_append, decodeAll_messages hd hl hsent, Prod.ext_iff] at hp
  obtain ⟨h3, h4⟩ := hp
  simp only at h3 h4
  refine ⟨lost, h1, ?_, ?_⟩
  · rw [h3]
    cases lost with
    | nil => exact .inl (by simp [decodeAll, drain])
    | cons v rest =>
      have hr : m.Repr c v := hv v (by rw [h1]; simp)
      simp only
      rcases Nat.lt_or_ge n (m.write c v).bytes.length with hn | hn
      · left
        rw [decodeAll_stuck (Message.cut c m) hal (fun r => C26_prefix c hd hr hn r), List.append_nil]
      · right
        refine ⟨v, rest, rfl, ?_, by simp [hx, h2, hs, List.take_of_length_le hn]⟩
        have := C23_trailing c hd hr []
        rw [List.append_nil] at this
        rw [List.take_of_length_le hn, decodeAll_ok (Message.cut c m) hal this, List.drop_length]
        rfl
  · rintro rfl
    rw [h4]; rfl

example {xs : List Bytes} (hx : xs.flatten =
      (send Sink.vec Ex.ctx Ex.group [Ex.groupV, Ex.groupV] []).2) :
    (receive (Ex.group.parse Ex.ctx) [] xs).1.flatten = [Ex.groupV, Ex.groupV] := by
  have e : (send Sink.vec Ex.ctx Ex.group [Ex.groupV, Ex.groupV] []).1 = [Ex.groupV, Ex.groupV] := by krfl
  obtain ⟨lost, h1, h2, -⟩ := C111_sent Ex.ctx (m := Ex.group) (by decide) (by decide)
    (S := Sink.vec) (received := id) (fun bs s => ⟨bs.length, by simp [Sink.vec], .inl ⟨rfl, Nat.le_refl _⟩⟩)
    (vs := [Ex.groupV, Ex.groupV]) (by simpa using Ex.groupV_repr) (s := []) rfl hx
  rw [e] at h1 h2
  rcases h2 with h2 | ⟨v, rest, rfl, _⟩
  · exact h2
  · exact absurd (congrArg List.length h1) (by simp)

/-- C111: a stream that accepts `k` bytes and then fails: the receiver gets exactly the values whose
writes succeeded. -/
theorem C111_limited (c : Ctx) {m : Message} (hd : m.delimited c.emb = true) (hl : 1 ≤ m.least)
    {vs : List Value} (hv : ∀ v ∈ vs, m.Repr c v) (k : Nat) {xs : List Bytes}
    (hx : xs.flatten = (send Sink.limited c m vs ⟨[], k⟩).2.received) :
    (receive (m.parse c) [] xs).1.flatten = (send Sink.limited c m vs ⟨[], k⟩).1 ∧
      xs.flatten = (vs.flatMap fun v => (m.write c v).bytes).take k := by
  have hal : (m.parse c).AtLeast 1 := fun b k v h => Nat.le_trans hl (C102_least c m h)
  have key : ∀ (vs : List Value) (k : Nat) (got : Bytes), (∀ v ∈ vs, m.Repr c v) →
      ∃ t, (∀ r, m.parse c t ≠ .ok r) ∧
        (send Sink.limited c m vs ⟨got, k⟩).2.received =
          got ++ ((send Sink.limited c m vs ⟨got, k⟩).1.flatMap fun v => (m.write c v).bytes) ++ t ∧
        (send Sink.limited c m vs ⟨got, k⟩).2.received =
          got ++ (vs.flatMap fun v => (m.write c v).bytes).take k ∧
        ∀ v ∈ (send Sink.limited c m vs ⟨got, k⟩).1, m.Repr c v := by
    intro vs
    induction vs with
    | nil =>
      intro k got _
      refine ⟨[], ?_, by simp [send], by simp [send], by simp [send]⟩
      rintro ⟨n, v⟩ h
      have := hal _ _ _ h
      have := (Message.cut c m _ _ _ h).1
      simp at this; omega
    | cons v vs ih =>
      intro k got hv
      have hrep := hv v (List.mem_cons_self ..)
      have hr := (Message.roundTrips c m v hrep).1
      rcases Nat.lt_or_ge k (m.write c v).bytes.length with hk | hk
      · rw [send, Out.run_limited_lt _ _ hk]
        refine ⟨(m.write c v).bytes.take k, fun r => C26_prefix c hd hrep hk r, by simp, ?_, by simp⟩
        rw [List.flatMap_cons, List.take_append_of_le_length (Nat.le_of_lt hk)]
      · rw [send, Out.run_limited_ge _ _ hk, hr]
        obtain ⟨t, e0, e1, e2, e3⟩ := ih (k - (m.write c v).bytes.length) (got ++ (m.write c v).bytes)
          (fun v h => hv v (List.mem_cons_of_mem _ h))
        refine ⟨t, e0, ?_, ?_, ?_⟩
        · simp only [e1, List.flatMap_cons, List.append_assoc]
        · simp only [e2, List.flatMap_cons, List.take_append, List.take_of_length_le hk, List.append_assoc]
        · intro w hw
          rcases List.mem_cons.1 hw with rfl | hw
          · exact hrep
          · exact e3 w hw
  obtain ⟨t, e0, e1, e2, e3⟩ := key vs k [] hv
  rw [List.nil_append] at e1 e2
  have hp := C110_pieces c hd hl xs
  rw [hx, e1, decodeAll_messages hd hl e3, decodeAll_stuck (Message.cut c m) hal e0, List.append_nil,
    Prod.ext_iff] at hp
  exact ⟨hp.1, hx.trans e2⟩

example {xs : List Bytes} (hx : xs.flatten =
      (send Sink.limited Ex.ctx Ex.group [Ex.groupV, Ex.groupV] ⟨[], 13⟩).2.received) :
    (receive (Ex.group.parse Ex.ctx) [] xs).1.flatten = [Ex.groupV] :=
  (C111_limited Ex.ctx (m := Ex.group) (by decide) (by decide) (by simpa using Ex.groupV_repr) 13 hx).1.trans
    (by krfl)

/-- C111: continuing on new connections with the values whose writes did not succeed: in the values
received over all connections those sent are found in order, and there is at most one more of them for each
connection. -/
theorem C111_resent (c : Ctx) {m : Message} (hd : m.delimited c.emb = true) (hl : 1 ≤ m.least)
    {S : Sink σ} {received : σ → Bytes} (hS : Stream S received) {vs : List Value} (hv : ∀ v ∈ vs, m.Repr c v)
    {ss : List σ} (hs : ∀ s ∈ ss, received s = []) {xss : List (List Bytes)}
    (hx : xss.map List.flatten = (resend S c m vs ss).map fun r => received r.2) :
    (resend S c m vs ss).flatMap Prod.fst <+: vs ∧
    ((resend S c m vs ss).flatMap Prod.fst).Sublist
      (xss.flatMap fun xs => (receive (m.parse c) [] xs).1.flatten) ∧
    (xss.flatMap fun xs => (receive (m.parse c) [] xs).1.flatten).length ≤
      ((resend S c m vs ss).flatMap Prod.fst).length + ss.length ∧
    ∀ v ∈ xss.flatMap (fun xs => (receive (m.parse c) [] xs).1.flatten), v ∈ vs := by
  induction ss generalizing vs xss with
  | nil =>
    cases xss with
    | nil => exact ⟨List.nil_prefix, by simp [resend], by simp [resend], by simp⟩
    | cons _ _ => simp [resend] at hx
  | cons s ss ih =>
    cases xss with
    | nil => simp [resend] at hx
    | cons xs xss =>
      simp only [resend, List.map_cons, List.cons.injEq] at hx
      obtain ⟨lost, h1, h2, -⟩ := C111_sent c hd hl hS hv (hs s (List.mem_cons_self ..)) hx.1
      have hdrop : vs.drop (send S c m vs s).1.length = lost := by
        calc vs.drop (send S c m vs s).1.length
            = ((send S c m vs s).1 ++ lost).drop (send S c m vs s).1.length := by rw [← h1]
          _ = lost := List.drop_left
      obtain ⟨⟨rest, e1⟩, e2, e3, e4⟩ := ih (vs := vs.drop (send S c m vs s).1.length)
        (fun v h => hv v (List.mem_of_mem_drop h)) (fun s h => hs s (List.mem_cons_of_mem _ h)) hx.2
      simp only [resend, List.flatMap_cons, List.length_append, List.length_cons]
      have hsub : (send S c m vs s).1.Sublist (receive (m.parse c) [] xs).1.flatten ∧
          (receive (m.parse c) [] xs).1.flatten.length ≤ (send S c m vs s).1.length + 1 ∧
          ∀ v ∈ (receive (m.parse c) [] xs).1.flatten, v ∈ vs := by
        rcases h2 with h2 | ⟨v, r, rfl, h2, -⟩
        · rw [h2]
          exact ⟨List.Sublist.refl _, Nat.le_succ _, fun v h => h1 ▸ List.mem_append_left _ h⟩
        · rw [h2]
          refine ⟨List.sublist_append_left _ _, by simp, fun w h => ?_⟩
          rw [h1]
          rcases List.mem_append.1 h with h | h
          · exact List.mem_append_left _ h
          · simp only [List.mem_singleton] at h
            subst h; simp
      refine ⟨⟨rest, ?_⟩, List.Sublist.append hsub.1 e2, by omega, fun v h => ?_⟩
      · rw [List.append_assoc, e1, hdrop, ← h1]
      · rcases List.mem_append.1 h with h | h
        · exact hsub.2.2 v h
        · exact List.mem_of_mem_drop (e4 v h)

/-- Two messages of ten bytes on a connection that takes thirteen, then on one that takes a hundred. -/
example : ((resend Sink.limited Ex.ctx Ex.group [Ex.groupV, Ex.groupV] [⟨[], 13⟩, ⟨[], 100⟩]).map fun r =>
      (r.1.length, r.2.received.length)) = [(1, 13), (1, 10)] := by krfl

example {xss : List (List Bytes)} (hx : xss.map List.flatten =
      (resend Sink.limited Ex.ctx Ex.group [Ex.groupV, Ex.groupV] [⟨[], 13⟩, ⟨[], 100⟩]).map fun r => r.2.received) :
    [Ex.groupV, Ex.groupV].Sublist (xss.flatMap fun xs => (receive (Ex.group.parse Ex.ctx) [] xs).1.flatten) := by
  have h := C111_resent Ex.ctx (m := Ex.group) (by decide) (by decide) limited_stream
    (vs := [Ex.groupV, Ex.groupV]) (by simpa using Ex.groupV_repr) (ss := [⟨[], 13⟩, ⟨[], 100⟩]) (by simp) hx
  have e : (resend Sink.limited Ex.ctx Ex.group [Ex.groupV, Ex.groupV] [⟨[], 13⟩, ⟨[], 100⟩]).flatMap Prod.fst =
      [Ex.groupV, Ex.groupV] := by krfl
  rw [e] at h
  exact h.2.1

end Props

end Proto
