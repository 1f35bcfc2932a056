import Verif.Props.Message
import Verif.Spec.Patch

/-!
# C108: replacing a part of an encoded message in place
-/

namespace Proto.Props

open Spec

/-- A field depends on the fields before it only through the key of a union. -/
theorem MField.parse_env {c : Ctx} {emb : Bool} {f : MField} {env env' : Env}
    (h : ∀ u on i, f.ty = .union u on i → u.discriminant.read c.p env on = u.discriminant.read c.p env' on) :
    f.parse c emb env = f.parse c emb env' := by
  obtain ⟨nm, ty, op, sz, e⟩ := f
  simp only [MField.ty] at h
  have ht : ty.parse c emb e env = ty.parse c emb e env' := by
    cases ty with
    | union u on i =>
      obtain ⟨un, d, cs, usz⟩ := u
      have := h _ on i rfl
      simp only [Union.discriminant] at this
      funext b
      simp only [MFieldTy.parse, Union.parse, this]
    | _ => simp only [MFieldTy.parse]
  simp only [MField.parse, ht]

theorem lookup_swap {e t : Env} {nm on : Name} {v w : Value} :
    (on ≠ nm → (e ++ (nm, w) :: t).lookup on = (e ++ (nm, v) :: t).lookup on) ∧
    ((e ++ (nm, w) :: t).lookup nm = (e ++ (nm, v) :: t).lookup nm ∨
      (e ++ (nm, w) :: t).lookup nm = some w ∧ (e ++ (nm, v) :: t).lookup nm = some v) := by
  induction e with
  | nil =>
    refine ⟨fun h => ?_, .inr ?_⟩
    · have : (on == nm) = false := by simpa using h
      simp [List.lookup_cons, this]
    · simp [List.lookup_cons]
  | cons x e ih =>
    obtain ⟨k, y⟩ := x
    refine ⟨fun h => ?_, ?_⟩
    · simp only [List.cons_append, List.lookup_cons]
      split
      · rfl
      · exact ih.1 h
    · simp only [List.cons_append, List.lookup_cons]
      split
      · exact .inl rfl
      · exact ih.2

theorem read_swap {p : Profile} {fs : List MField} {nm : Name} {v w : Value} (hk : SameKey p fs nm v w)
    {f : MField} (hf : f ∈ fs) {u : Union} {on : Name} {i : Nat} (hu : f.ty = .union u on i) (e t : Env) :
    u.discriminant.read p (e ++ (nm, w) :: t) on = u.discriminant.read p (e ++ (nm, v) :: t) on := by
  unfold Discriminant.read
  by_cases hon : on = nm
  · subst hon
    rcases (lookup_swap (e := e) (t := t) (nm := on) (on := on) (v := v) (w := w)).2 with h | ⟨h1, h2⟩
    · rw [h]
    · have := hk f hf u i hu
      unfold Discriminant.read at this
      simpa [h1, h2, List.lookup_cons] using this
  · rw [lookup_swap.1 hon]

/-- The fields after the replaced one. -/
theorem runFields_swap {c : Ctx} {emb : Bool} {fs : List MField} {nm : Name} {v w : Value}
    (hk : SameKey c.p fs nm v w) {e t : Env} {b : Bytes} {n : Nat} {ws : Env}
    (h : runFields (MField.parse c emb) fs (e ++ (nm, v) :: t) b = .ok (n, e ++ (nm, v) :: t ++ ws)) :
    runFields (MField.parse c emb) fs (e ++ (nm, w) :: t) b = .ok (n, e ++ (nm, w) :: t ++ ws) := by
  induction fs generalizing t b n ws with
  | nil =>
    simp only [runFields, Res.ok.injEq, Prod.mk.injEq] at h ⊢
    have : ws = [] := by simpa using h.2.symm
    subst this
    exact ⟨h.1, by simp⟩
  | cons f fs ih =>
    obtain ⟨m, x, k, h1, h2, rfl⟩ := runFields_cons_ok.mp h
    obtain ⟨ws', hws⟩ := runFields_env h2
    have hws' : ws = (f.name, x) :: ws' := by
      rw [List.append_assoc (e ++ (nm, v) :: t)] at hws
      simpa using List.append_cancel_left hws
    subst hws'
    have he : f.parse c emb (e ++ (nm, w) :: t) = f.parse c emb (e ++ (nm, v) :: t) :=
      MField.parse_env fun u on i hu => read_swap hk (by simp) hu e t
    refine runFields_cons_ok.mpr ⟨m, x, k, by rw [he]; exact h1, ?_, rfl⟩
    have := ih (fun g hg u i hu => hk g (by simp [hg]) u i hu) (t := t ++ [(f.name, x)]) (b := b.drop m)
      (n := k) (ws := ws') (by simpa using h2)
    simpa using this

theorem patch_cons {b x : Bytes} {lo hi m : Nat} (h : m ≤ lo) (h' : lo ≤ hi) (hl : m ≤ b.length) :
    patch b lo hi x = b.take m ++ patch (b.drop m) (lo - m) (hi - m) x := by
  unfold patch
  rw [List.drop_drop, show m + (hi - m) = hi by omega]
  have ht : b.take lo = b.take m ++ (b.drop m).take (lo - m) := by
    rw [← List.take_add, show m + (lo - m) = lo by omega]
  rw [ht]
  simp

theorem MField.insensitive (c : Ctx) (emb : Bool) (f : MField) (env : Env) :
    (f.parse c emb env).Insensitive :=
  MField.optional_law ((insensitiveInd c).ty _ _ _ _)
    (fun _ => (Optional.insensitive ((insensitiveInd c).ty _ _ _ _)).map)

theorem runOff_start {step : MField → Env → Parser (Value × Offsets)} {fs : List MField} {env : Env}
    {off : Nat} {b : Bytes} {n : Nat} {env' : Env} {offs : OffEnv}
    (h : runOff step fs env off b = .ok (n, env', offs)) {i : Nat} {x : Name × FieldOffset × Offsets}
    (hx : offs[i]? = some x) : off ≤ x.2.1.start ∧ x.2.1.start ≤ x.2.1.stop := by
  induction fs generalizing env off b n offs i with
  | nil =>
    simp only [runOff, Res.ok.injEq, Prod.mk.injEq] at h
    rw [← h.2.2] at hx; simp at hx
  | cons f fs ih =>
    obtain ⟨m, v, o, k, rest, h1, h2, rfl, rfl⟩ := runOff_cons_ok.mp h
    cases i with
    | zero => simp at hx; subst hx; exact ⟨Nat.le_refl _, by simp⟩
    | succ i =>
      have := ih h2 (i := i) (by simpa using hx)
      omega

/-- The fields after the first one run, and what the first one gives. -/
theorem runOff_head {c : Ctx} {emb : Bool} {g : MField} {fs : List MField} {env vs : Env} {off : Nat}
    {b : Bytes} {n : Nat} {offs : OffEnv}
    (h : runOff (MField.parseOff c emb) (g :: fs) env off b = .ok (n, env ++ vs, offs)) :
    ∃ m y o k rest ws, g.parseOff c emb env b = .ok ⟨m, (y, o)⟩ ∧ g.parse c emb env b = .ok ⟨m, y⟩ ∧
      m ≤ b.length ∧ vs = (g.name, y) :: ws ∧ n = m + k ∧ offs = (g.name, ⟨off, off + m⟩, o) :: rest ∧
      runOff (MField.parseOff c emb) fs (env ++ [(g.name, y)]) (off + m) (b.drop m) =
        .ok (k, env ++ [(g.name, y)] ++ ws, rest) ∧
      runFields (MField.parse c emb) fs (env ++ [(g.name, y)]) (b.drop m) =
        .ok (k, env ++ [(g.name, y)] ++ ws) := by
  obtain ⟨m, y, o', k, rest, h1, h2, rfl, rfl⟩ := runOff_cons_ok.mp h
  have h2' := runOff_fst (fun g (_ : g ∈ fs) env => MField.parseOff_fst c emb g env)
    (env ++ [(g.name, y)]) (off + m) (b.drop m)
  rw [h2] at h2'
  simp only [Res.bind] at h2'
  obtain ⟨ws, hws⟩ := runFields_env h2'.symm
  have hvs : vs = (g.name, y) :: ws := by
    rw [List.append_assoc] at hws
    simpa using List.append_cancel_left hws
  have hp : g.parse c emb env b = .ok ⟨m, y⟩ := by
    rw [← MField.parseOff_fst]
    exact Parser.map_eq_ok.mpr ⟨(y, o'), h1, rfl⟩
  exact ⟨m, y, o', k, rest, ws, h1, hp, (MField.cut c emb g env _ _ _ hp).1, hvs, rfl, rfl,
    by rw [← hws]; exact h2, by rw [← hws]; exact h2'.symm⟩

/-- What is at the place of a field. -/
theorem run_at {c : Ctx} {emb : Bool} {fs : List MField} {env vs : Env} {off : Nat} {b : Bytes}
    {n : Nat} {offs : OffEnv}
    (h : runOff (MField.parseOff c emb) fs env off b = .ok (n, env ++ vs, offs)) {i : Nat} {f : MField}
    (hf : fs[i]? = some f) {nm nm' : Name} {r : FieldOffset} {o : Offsets} (ho : offs[i]? = some (nm, r, o))
    {v : Value} (hv : vs[i]? = some (nm', v)) :
    nm = f.name ∧ nm' = f.name ∧ off ≤ r.start ∧ r.start ≤ r.stop ∧ r.stop ≤ off + n ∧
    f.parseOff c emb (env ++ vs.take i) (b.drop (r.start - off)) = .ok ⟨r.stop - r.start, (v, o)⟩ := by
  induction fs generalizing env vs off b n offs i with
  | nil => simp at hf
  | cons g fs ih =>
    obtain ⟨m, y, o', k, rest, ws, h1, hp, hm, rfl, rfl, rfl, h2, h2'⟩ := runOff_head h
    cases i with
    | zero =>
      simp only [List.getElem?_cons_zero, Option.some.injEq, Prod.mk.injEq] at hf ho hv
      obtain ⟨rfl, rfl, rfl⟩ := ho
      obtain ⟨rfl, rfl⟩ := hv
      subst hf
      refine ⟨rfl, rfl, Nat.le_refl _, by simp, by simp, by simpa using h1⟩
    | succ i =>
      simp only [List.getElem?_cons_succ] at hf ho hv
      obtain ⟨e1, e2, e0, e3, e4, e5⟩ := ih h2 hf ho hv
      refine ⟨e1, e2, by omega, e3, by omega, ?_⟩
      rw [List.drop_drop, show m + (r.start - (off + m)) = r.start - off by omega] at e5
      simpa using e5

/-- One level. -/
theorem run_patch {c : Ctx} {emb : Bool} {fs : List MField} {env vs : Env} {off : Nat} {b : Bytes}
    {n : Nat} {offs : OffEnv}
    (h : runOff (MField.parseOff c emb) fs env off b = .ok (n, env ++ vs, offs)) {i : Nat} {f : MField}
    (hf : fs[i]? = some f) {nm nm' : Name} {r : FieldOffset} {o : Offsets} (ho : offs[i]? = some (nm, r, o))
    {v : Value} (hv : vs[i]? = some (nm', v)) (hlo : r.start - off < b.length) {x : Bytes} {w : Value}
    (hx : f.parse c emb (env ++ vs.take i) (x ++ b.drop (r.stop - off)) = .ok ⟨x.length, w⟩)
    (hk : SameKey c.p (fs.drop (i + 1)) f.name v w) :
    runFields (MField.parse c emb) fs env (patch b (r.start - off) (r.stop - off) x) =
      .ok (n + x.length - (r.stop - r.start), env ++ vs.set i (f.name, w)) := by
  induction fs generalizing env vs off b n offs i with
  | nil => simp at hf
  | cons g fs ih =>
    obtain ⟨m, y, o', k, rest, ws, h1, hp, hm, rfl, rfl, rfl, h2, h2'⟩ := runOff_head h
    cases i with
    | zero =>
      simp only [List.getElem?_cons_zero, Option.some.injEq, Prod.mk.injEq] at hf ho hv
      obtain ⟨rfl, rfl, rfl⟩ := ho
      obtain ⟨rfl, rfl⟩ := hv
      subst hf
      simp only [Nat.sub_self, Nat.add_sub_cancel_left, List.take_zero, List.append_nil,
        List.set_cons_zero, List.drop_succ_cons, List.drop_zero, Nat.zero_add] at hx hk ⊢
      refine runFields_cons_ok.mpr ⟨x.length, w, k, ?_, ?_, by omega⟩
      · simpa [patch] using hx
      · have := runFields_swap hk (e := env) (t := []) (b := b.drop m) (n := k) (ws := ws) h2'
        simpa [patch] using this
    | succ i =>
      obtain ⟨-, -, e0, e1, e2, -⟩ := run_at h2 (by simpa using hf) (by simpa using ho) (by simpa using hv)
      simp only [List.getElem?_cons_succ] at hf ho hv
      have hmlt : m < b.length := by omega
      have := ih h2 hf ho hv
        (by simp; omega) (by
          rw [List.drop_drop, show m + (r.stop - (off + m)) = r.stop - off by omega]
          simpa using hx) (by simpa using hk)
      rw [patch_cons (m := m) (by omega) (by omega) hm]
      refine runFields_cons_ok.mpr ⟨m, y, k + x.length - (r.stop - r.start),
        MField.insensitive c emb g env _ _ _ hp hmlt _, ?_, ?_⟩
      · have hl : (b.take m).length = m := by simp; omega
        rw [List.drop_append_of_le_length (by omega), List.drop_of_length_le (by omega), List.nil_append,
          show r.start - off - m = r.start - (off + m) by omega,
          show r.stop - off - m = r.stop - (off + m) by omega, this]
        simp
      · omega

theorem sameKey_msg (p : Profile) (fs : List MField) (nm : Name) (vs ws : Env) :
    SameKey p fs nm (.msg vs) (.msg ws) := by
  intro f _ u i _
  simp [Discriminant.read, List.lookup_cons]

theorem sameKey_some (p : Profile) (fs : List MField) (nm : Name) (v w : Value) :
    SameKey p fs nm (.some v) (.some w) := by
  intro f _ u i _
  simp [Discriminant.read, List.lookup_cons]

theorem run_of {c : Ctx} {m : Message} {b : Bytes} {n : Nat} {vs : Env} {offs : OffEnv}
    (h : m.parseOff c b = .ok ⟨n, (.msg vs, .msg offs)⟩) :
    runOff (MField.parseOff c (c.emb m.id)) m.fields [] 0 b = .ok (n, [] ++ vs, offs) := by
  obtain ⟨vs', offs', hv, ho, hr⟩ := Message.parseOff_eq_ok.mp h
  obtain rfl := Value.msg.inj hv
  obtain rfl := Offsets.msg.inj ho
  exact hr

theorem field_of {c : Ctx} {m : Message} {b : Bytes} {n : Nat} {vs : Env} {offs : OffEnv}
    (h : m.parseOff c b = .ok ⟨n, (.msg vs, .msg offs)⟩) {i : Nat} {x : Name × FieldOffset × Offsets}
    (ho : offs[i]? = some x) :
    ∃ f v, m.fields[i]? = some f ∧ vs[i]? = some (f.name, v) := by
  obtain ⟨vs', offs', hv, ho', h1, h2, h3, h4⟩ := C35_tiles c m h
  obtain rfl := Value.msg.inj hv
  obtain rfl := Offsets.msg.inj ho'
  have hi : i < m.fields.length := by
    rw [← h2]; exact (List.getElem?_eq_some_iff.mp ho).1
  obtain ⟨r, o, v, -, g2, -⟩ := h4 i _ (List.getElem?_eq_getElem hi)
  exact ⟨_, v, List.getElem?_eq_getElem hi, g2⟩

theorem set_self {α : Type} {l : List α} {i : Nat} {x : α} (h : l[i]? = some x) : l.set i x = l := by
  obtain ⟨hi, hx⟩ := List.getElem?_eq_some_iff.mp h
  rw [← hx]; exact List.set_getElem_self hi

/-- What a path leads to is the field, there. -/
theorem leads_at {c : Ctx} {m m' : Message} {b : Bytes} {n lo hi i : Nat} {v : Value} {o : Offsets}
    {vs : Env} {put : Value → Value} (hl : Leads m v o lo hi m' vs i put)
    (h : m.parseOff c b = .ok ⟨n, (v, o)⟩) :
    lo ≤ hi ∧ hi ≤ n ∧ (∃ es, v = .msg es ∧ ∀ w, ∃ es', put w = .msg es') ∧
    ∃ f old, m'.fields[i]? = some f ∧ vs[i]? = some (f.name, old) ∧
      f.parse c (c.emb m'.id) (vs.take i) (b.drop lo) = .ok ⟨hi - lo, old⟩ ∧ put old = v := by
  induction hl generalizing b n with
  | @here m vs offs i nm r o ho =>
    obtain ⟨f, v, hf, hv⟩ := field_of h ho
    obtain ⟨e1, -, e2, e3, e4, e5⟩ := run_at (run_of h) hf ho hv
    refine ⟨e3, by omega, ⟨vs, rfl, fun w => ⟨_, rfl⟩⟩, f, v, hf, hv, ?_, ?_⟩
    · rw [← MField.parseOff_fst]
      exact Parser.map_eq_ok.mpr ⟨(v, o), by simpa using e5, rfl⟩
    · subst e1; simp only [set_self hv]
  | @inside m m₁ m' vs vs' offs i j lo hi nm r o v put sz e hf hv ho hl ih =>
    obtain ⟨-, -, e2, e3, e4, e5⟩ := run_at (run_of h) hf ho hv
    have e6 := (C35_nested c _ _ _ _ e5).1 m₁ rfl rfl
    obtain ⟨h1, h2, -, f, old, h4, h5, h6, h7⟩ := ih e6
    refine ⟨by omega, by omega, ⟨vs, rfl, fun w => ⟨_, rfl⟩⟩, f, old, h4, h5, ?_, ?_⟩
    · rw [List.drop_drop] at h6
      simpa [Nat.add_sub_add_left] using h6
    · simp only [h7, set_self hv]
  | @present m m₁ m' vs vs' offs i j lo hi nm r o v put sz e hf hv ho hl ih =>
    obtain ⟨-, -, e2, e3, e4, e5⟩ := run_at (run_of h) hf ho hv
    rcases (C35_nested c _ _ _ _ e5).2.1 m₁ rfl rfl with ⟨h0, -, -⟩ | ⟨x, y, hx, hy, hn, e6⟩
    · cases h0
    obtain rfl := Value.some.inj hx
    obtain rfl := Offsets.present.inj hy
    obtain ⟨h1, h2, -, f, old, h4, h5, h6, h7⟩ := ih e6
    refine ⟨by omega, by omega, ⟨vs, rfl, fun w => ⟨_, rfl⟩⟩, f, old, h4, h5, ?_, ?_⟩
    · rw [List.drop_drop, List.drop_drop] at h6
      simp only [Nat.sub_zero, ← Nat.add_assoc] at h6
      simpa only [Nat.add_sub_add_left] using h6
    · simp only [h7, set_self hv]

theorem drop_mid {b : Bytes} {k hi m : Nat} (hhi : hi ≤ m) (hm : k + m ≤ b.length) :
    ((b.drop k).take m).drop hi ++ b.drop (k + m) = b.drop (k + hi) := by
  have h : (b.drop k).take m ++ b.drop (k + m) = b.drop k := by
    rw [← List.drop_drop, List.take_append_drop]
  rw [← List.drop_append_of_le_length (by simp; omega), h, List.drop_drop]

theorem patch_inside {b x : Bytes} {k lo hi m : Nat} (hlo : lo ≤ hi) (hhi : hi ≤ m) (hm : k + m ≤ b.length) :
    ∃ x', x'.length = lo + x.length + (m - hi) ∧ x' ++ b.drop (k + m) = patch (b.drop k) lo hi x ∧
      patch b k (k + m) x' = patch b (k + lo) (k + hi) x := by
  refine ⟨(b.drop k).take lo ++ x ++ ((b.drop k).take m).drop hi, ?_, ?_, ?_⟩
  · simp; omega
  · unfold patch
    rw [List.append_assoc, drop_mid hhi hm, List.drop_drop]
  · unfold patch
    rw [List.take_add, ← drop_mid hhi hm]
    simp

/-- C108: the bytes at the place the offsets report for a field, however deep, are the field's: decoding
them alone, after the fields before it, yields the field's value. -/
theorem C108_find (c : Ctx) {m m' : Message} {b : Bytes} {n lo hi i : Nat} {v : Value} {o : Offsets}
    {vs : Env} {put : Value → Value} (h : m.parseOff c b = .ok ⟨n, (v, o)⟩)
    (hl : Leads m v o lo hi m' vs i put) :
    lo ≤ hi ∧ hi ≤ n ∧ n ≤ b.length ∧
    ∃ f old, m'.fields[i]? = some f ∧ vs[i]? = some (f.name, old) ∧
      f.parse c (c.emb m'.id) (vs.take i) ((b.drop lo).take (hi - lo)) = .ok ⟨hi - lo, old⟩ ∧ put old = v := by
  obtain ⟨h1, h2, -, f, old, h3, h4, h5, h6⟩ := leads_at hl h
  have hp : m.parse c b = .ok ⟨n, v⟩ := by rw [← C35_agree, h]; rfl
  exact ⟨h1, h2, (Message.cut c m _ _ _ hp).1, f, old, h3, h4,
    (MField.cut c _ f _ _ _ _ h5).2 _ (Nat.le_refl _), h6⟩

/-- C108: bytes that decode as the field, put in its place, change that field and nothing else. -/
theorem C108_replace (c : Ctx) {m m' : Message} {b x : Bytes} {n lo hi i : Nat} {v w old : Value}
    {o : Offsets} {vs : Env} {put : Value → Value} {f : MField} (h : m.parseOff c b = .ok ⟨n, (v, o)⟩)
    (hl : Leads m v o lo hi m' vs i put) (hlo : lo < b.length) (hf : m'.fields[i]? = some f)
    (hv : vs[i]? = some (f.name, old))
    (hx : f.parse c (c.emb m'.id) (vs.take i) (x ++ b.drop hi) = .ok ⟨x.length, w⟩)
    (hk : SameKey c.p (m'.fields.drop (i + 1)) f.name old w) :
    m.parse c (patch b lo hi x) = .ok ⟨n + x.length - (hi - lo), put w⟩ := by
  have hn : n ≤ b.length := (C108_find c h hl).2.2.1
  induction hl generalizing b n with
  | @here m vs offs i nm r o ho =>
    obtain ⟨rfl, -, -⟩ := run_at (run_of h) hf ho hv
    have := run_patch (run_of h) hf ho hv (x := x) (w := w) (by simpa using hlo) (by simpa using hx) hk
    exact Message.parse_eq_ok.mpr ⟨_, rfl, by simpa using this⟩
  | @inside m m₁ m' vs vs' offs i j lo hi nm r o v put sz e hf' hv' ho hl ih =>
    obtain ⟨-, -, e2, e3, e4, e5⟩ := run_at (run_of h) hf' ho hv'
    have e6 := (C35_nested c _ _ _ _ e5).1 m₁ rfl rfl
    simp only [Nat.sub_zero] at e6
    obtain ⟨h1, h2, ⟨es, rfl, hput⟩, -⟩ := leads_at hl e6
    have h3 := ih e6 (by simp; omega) hf hv (by rw [List.drop_drop]; exact hx) hk (by simp; omega)
    obtain ⟨x', g1, g2, g3⟩ := patch_inside (b := b) (x := x) (k := r.start) h1 h2 (by omega)
    rw [show r.start + (r.stop - r.start) = r.stop by omega] at g2 g3
    rw [← g3]
    obtain ⟨es', hes⟩ := hput w
    have := run_patch (run_of h) hf' ho hv' (x := x') (w := put w) (by simp; omega)
      (by
        simp only [Nat.sub_zero, g2, MField.parse, MFieldTy.parse, Referenced.parse,
          Bool.false_eq_true, if_false]
        rw [h3, g1]
        congr 2; omega)
      (by rw [hes]; exact sameKey_msg _ _ _ _ _)
    refine Message.parse_eq_ok.mpr ⟨_, rfl, ?_⟩
    simp only [Nat.sub_zero, List.nil_append, MField.name] at this
    rw [this, g1]
    congr 2; omega
  | @present m m₁ m' vs vs' offs i j lo hi nm r o v put sz e hf' hv' ho hl ih =>
    obtain ⟨-, -, e2, e3, e4, e5⟩ := run_at (run_of h) hf' ho hv'
    rcases (C35_nested c _ _ _ _ e5).2.1 m₁ rfl rfl with ⟨h0, -, -⟩ | ⟨x₀, y, hx₀, hy, hn', e6⟩
    · cases h0
    obtain rfl := Value.some.inj hx₀
    obtain rfl := Offsets.present.inj hy
    simp only [Nat.sub_zero, List.drop_drop] at e6
    obtain ⟨h1, h2, -, -⟩ := leads_at hl e6
    have h3 := ih e6 (by simp; omega) hf hv (by rw [List.drop_drop]; exact hx) hk (by simp; omega)
    obtain ⟨x', g1, g2, g3⟩ := patch_inside (b := b) (x := x) (k := r.start) (lo := 1 + lo) (hi := 1 + hi)
      (m := r.stop - r.start) (by omega) (by omega) (by omega)
    rw [show r.start + (r.stop - r.start) = r.stop by omega] at g2 g3
    rw [← Nat.add_assoc, ← Nat.add_assoc] at g3
    rw [← g3]
    have hb : ∃ y t, b.drop r.start = y :: t ∧ y ≠ 0 := by
      have hp : (MField.mk nm (.ref (.message m₁)) true sz e).parse c (c.emb m.id) ([] ++ vs.take i)
          (b.drop (r.start - 0)) = .ok ⟨r.stop - r.start, .some v⟩ := by
        rw [← MField.parseOff_fst]
        exact Parser.map_eq_ok.mpr ⟨_, e5, rfl⟩
      simp only [MField.parse, if_true, Nat.sub_zero] at hp
      obtain ⟨q, hq, hq'⟩ := Parser.map_eq_ok.mp hp
      rcases Optional.fromSlice_eq_ok.mp hq with ⟨t, ht, -, rfl⟩ | ⟨y, t, k, w', ht, hy, -⟩
      · cases hq'
      · exact ⟨y, t, ht, hy⟩
    obtain ⟨y, t, ht, hy⟩ := hb
    have ht' : b.drop (r.start + 1) = t := by rw [← List.drop_drop, ht]; rfl
    have := run_patch (run_of h) hf' ho hv' (x := x') (w := .some (put w)) (by simp; omega)
      (by
        simp only [Nat.sub_zero, g2, MField.parse, MFieldTy.parse, Referenced.parse, if_true]
        refine Parser.map_eq_ok.mpr ⟨some (put w), Optional.fromSlice_eq_ok.mpr (.inr ⟨y, patch t lo hi x,
          _, put w, ?_, hy, ht' ▸ h3, ?_, rfl⟩), rfl⟩
        · rw [ht, Nat.add_comm 1 lo, Nat.add_comm 1 hi]; simp [patch]
        · rw [g1]; omega)
      (sameKey_some _ _ _ _ _)
    refine Message.parse_eq_ok.mpr ⟨_, rfl, ?_⟩
    simp only [Nat.sub_zero, List.nil_append, MField.name] at this
    rw [this, g1]
    congr 2; omega

/-- C108: decoding the result with offsets: the new value's own offsets. -/
theorem C108_again (c : Ctx) {m m' : Message} {b x : Bytes} {n lo hi i : Nat} {v w old : Value}
    {o : Offsets} {vs : Env} {put : Value → Value} {f : MField} (h : m.parseOff c b = .ok ⟨n, (v, o)⟩)
    (hl : Leads m v o lo hi m' vs i put) (hlo : lo < b.length) (hf : m'.fields[i]? = some f)
    (hv : vs[i]? = some (f.name, old))
    (hx : f.parse c (c.emb m'.id) (vs.take i) (x ++ b.drop hi) = .ok ⟨x.length, w⟩)
    (hk : SameKey c.p (m'.fields.drop (i + 1)) f.name old w) :
    m.parseOff c (patch b lo hi x) =
      .ok ⟨n + x.length - (hi - lo), (put w, m.offsetsOf (put w))⟩ := by
  have hp := C108_replace c h hl hlo hf hv hx hk
  rw [C35_exact, hp]
  simp only [Res.bind, Message.parse_wire hp]

/-- The names and the ranges of the fields of a message. -/
def ranges (o : Offsets) : List (Name × FieldOffset) :=
  match o with
  | .msg offs => offs.map fun x => (x.1, x.2.1)
  | _ => []

theorem ranges_set {fs : List MField} {off : Nat} {vs : Env} {i : Nat} {f : MField} {nm nm' : Name}
    {v w : Value} (hf : fs[i]? = some f) (hv : vs[i]? = some (nm, v))
    (hw : (f.wire w).length = (f.wire v).length) :
    ranges (.msg (MField.listOffsets fs off (vs.set i (nm', w)))) =
      ranges (.msg (MField.listOffsets fs off vs)) := by
  simp only [ranges]
  induction fs generalizing off vs i with
  | nil => simp at hf
  | cons g fs ih =>
    cases vs with
    | nil => simp at hv
    | cons x vs =>
      obtain ⟨k, y⟩ := x
      cases i with
      | zero =>
        simp only [List.getElem?_cons_zero, Option.some.injEq, Prod.mk.injEq] at hf hv
        obtain ⟨rfl, rfl⟩ := hv
        subst hf
        simp only [List.set_cons_zero, MField.listOffsets, List.map_cons, hw]
      | succ i =>
        simp only [List.getElem?_cons_succ] at hf hv
        simp only [List.set_cons_succ, MField.listOffsets, List.map_cons, ih hf hv]

theorem offsetsOf_msg (m : Message) (vs : Env) :
    m.offsetsOf (.msg vs) = .msg (MField.listOffsets m.fields 0 vs) := by
  obtain ⟨id, nm, fs, sz⟩ := m
  simp [Message.offsetsOf, Message.fields]

/-- C108: replacing a field by as many bytes moves nothing: the message is as long as it was and its
fields are where they were. -/
theorem C108_stay (c : Ctx) {m m' : Message} {b x : Bytes} {n lo hi i : Nat} {v w old : Value}
    {o : Offsets} {vs : Env} {put : Value → Value} {f : MField} (h : m.parseOff c b = .ok ⟨n, (v, o)⟩)
    (hl : Leads m v o lo hi m' vs i put) (hlo : lo < b.length) (hf : m'.fields[i]? = some f)
    (hv : vs[i]? = some (f.name, old)) (hlen : x.length = hi - lo)
    (hx : f.parse c (c.emb m'.id) (vs.take i) (x ++ b.drop hi) = .ok ⟨x.length, w⟩)
    (hk : SameKey c.p (m'.fields.drop (i + 1)) f.name old w) :
    ∃ o', m.parseOff c (patch b lo hi x) = .ok ⟨n, (put w, o')⟩ ∧ ranges o' = ranges o := by
  have ha := C108_again c h hl hlo hf hv hx hk
  obtain ⟨h1, h2, -⟩ := C108_find c h hl
  refine ⟨_, by rw [ha, hlen, show n + (hi - lo) - (hi - lo) = n by omega], ?_⟩
  have ho := Message.parseOff_offsets h
  subst ho
  generalize hos : m.offsetsOf v = os at hl h
  cases hl with
  | @here _ _ offs _ nm r o' ho =>
    obtain ⟨-, -, -, -, -, e5⟩ := run_at (run_of h) hf ho hv
    have hold : f.parse c (c.emb m.id) ([] ++ vs.take i) (b.drop (r.start - 0)) =
        .ok ⟨r.stop - r.start, old⟩ := by
      rw [← MField.parseOff_fst]
      exact Parser.map_eq_ok.mpr ⟨_, e5, rfl⟩
    rw [← hos, offsetsOf_msg, offsetsOf_msg]
    exact ranges_set hf hv (by rw [MField.parse_wire' hx, MField.parse_wire' hold, hlen])
  | @inside _ m₁ _ vs₀ _ offs i₀ _ lo hi nm r o' v put sz e hf' hv' ho hl =>
    obtain ⟨-, -, e2, e3, e4, e5⟩ := run_at (run_of h) hf' ho hv'
    have e6 := (C35_nested c _ _ _ _ e5).1 m₁ rfl rfl
    simp only [Nat.sub_zero] at e6
    have hn : n ≤ b.length := (C108_find c h (.inside hf' hv' ho hl)).2.2.1
    obtain ⟨g1, g2, -⟩ := leads_at hl e6
    have h3 := C108_replace c e6 hl (by simp; omega) hf hv (by rw [List.drop_drop]; exact hx) hk
    have h4 : m₁.parse c (b.drop r.start) = .ok ⟨r.stop - r.start, v⟩ := by rw [← C35_agree, e6]; rfl
    rw [← hos, offsetsOf_msg, offsetsOf_msg]
    refine ranges_set hf' hv' ?_
    have h5 := Message.parse_wire h3
    have h6 := Message.parse_wire h4
    simp only [MField.wire, MFieldTy.wire, Referenced.wire, Bool.false_eq_true, if_false]
    omega
  | @present _ m₁ _ vs₀ _ offs i₀ _ lo hi nm r o' v put sz e hf' hv' ho hl =>
    obtain ⟨-, -, e2, e3, e4, e5⟩ := run_at (run_of h) hf' ho hv'
    rcases (C35_nested c _ _ _ _ e5).2.1 m₁ rfl rfl with ⟨h0, -, -⟩ | ⟨x₀, y, hx₀, hy, hn', e6⟩
    · cases h0
    obtain rfl := Value.some.inj hx₀
    obtain rfl := Offsets.present.inj hy
    simp only [Nat.sub_zero, List.drop_drop] at e6
    have hn : n ≤ b.length := (C108_find c h (.present hf' hv' ho hl)).2.2.1
    obtain ⟨g1, g2, -⟩ := leads_at hl e6
    have h3 := C108_replace c e6 hl (by simp; omega) hf hv (by rw [List.drop_drop]; exact hx) hk
    have h4 : m₁.parse c (b.drop (r.start + 1)) = .ok ⟨r.stop - r.start - 1, v⟩ := by
      rw [← C35_agree, e6]; rfl
    rw [← hos, offsetsOf_msg, offsetsOf_msg]
    refine ranges_set hf' hv' ?_
    have h5 := Message.parse_wire h3
    have h6 := Message.parse_wire h4
    simp only [MField.wire, MFieldTy.wire, Referenced.wire, if_true, List.length_cons]
    omega

/-- C108: a number written over a number field is read back, and nothing else changes. -/
theorem C108_number (c : Ctx) {m m' : Message} {b : Bytes} {n lo hi i k : Nat} {v : Value}
    {o : Offsets} {vs : Env} {put : Value → Value} {nm : Name} {ty : FixedTy} {sz : SizeInfo} {e : Endian}
    (h : m.parseOff c b = .ok ⟨n, (v, o)⟩) (hl : Leads m v o lo hi m' vs i put)
    (hf : m'.fields[i]? = some (.mk nm (.fixed ty) false sz e)) (hk : k < 256 ^ ty.byteSize) :
    hi = lo + ty.byteSize ∧
    m.parse c (patch b lo hi (wireInt e ty.byteSize k)) = .ok ⟨n, put (.num k)⟩ := by
  obtain ⟨h1, h2, hn, f, old, hf', hv, hp, -⟩ := C108_find c h hl
  rw [hf] at hf'
  obtain rfl := Option.some.inj hf'
  simp only [MField.parse, MFieldTy.parse, Bool.false_eq_true, if_false] at hp
  obtain ⟨y, hy, rfl⟩ := Parser.map_eq_ok.mp hp
  obtain ⟨-, hm⟩ := Scalar.fromSlice_eq_ok.mp hy
  have hsz : hi - lo = ty.byteSize := congrArg Msg.size hm
  have hpos : 0 < ty.byteSize := by cases ty <;> decide
  refine ⟨by omega, ?_⟩
  have := C108_replace c h hl (by omega) hf hv (x := wireInt e ty.byteSize k) (w := .num k)
    (by
      simp only [MField.parse, MFieldTy.parse, Bool.false_eq_true, if_false]
      refine Parser.map_eq_ok.mpr ⟨k, Scalar.fromSlice_eq_ok.mpr ⟨by simp, ?_⟩, rfl⟩
      rw [List.take_append_of_le_length (by simp), List.take_of_length_le (by simp)]
      rw [intOfWire_wireInt, Nat.mod_eq_of_lt hk]
      simp)
    (by intro f _ u i _; simp [Discriminant.read, List.lookup_cons])
  rw [this]
  congr 2
  simp; omega

/-- C108: so is a structure, if no union after it takes its key from it or the key stays. -/
theorem C108_structure (c : Ctx) {m m' : Message} {b x old : Bytes} {n lo hi i : Nat} {v : Value}
    {o : Offsets} {vs : Env} {put : Value → Value} {nm : Name} {s : Structure} {sz : SizeInfo} {e : Endian}
    (h : m.parseOff c b = .ok ⟨n, (v, o)⟩) (hl : Leads m v o lo hi m' vs i put) (hlo : lo < b.length)
    (hf : m'.fields[i]? = some (.mk nm (.ref (.struct s)) false sz e))
    (hv : vs[i]? = some (nm, .struct old)) (hx : x.length = s.byteSize)
    (hk : SameKey c.p (m'.fields.drop (i + 1)) nm (.struct old) (.struct x)) :
    hi = lo + s.byteSize ∧ m.parse c (patch b lo hi x) = .ok ⟨n, put (.struct x)⟩ := by
  obtain ⟨h1, h2, hn, f, old', hf', hv', hp, -⟩ := C108_find c h hl
  rw [hf] at hf'
  obtain rfl := Option.some.inj hf'
  have hparse : ∀ t : Bytes, s.byteSize ≤ t.length →
      s.parse t = .ok ⟨s.byteSize, .struct (t.take s.byteSize)⟩ := by
    intro t ht
    unfold Structure.parse
    rw [if_neg (by omega)]
    simp [Proto.slice, ht]
  simp only [MField.parse, MFieldTy.parse, Referenced.parse, Bool.false_eq_true, if_false] at hp
  have hsz : hi - lo = s.byteSize := by
    by_cases hs : s.byteSize ≤ ((b.drop lo).take (hi - lo)).length
    · rw [hparse _ hs] at hp
      exact (congrArg Msg.size (Res.ok.inj hp)).symm
    · unfold Structure.parse at hp
      rw [if_pos (by omega)] at hp
      cases hp
  refine ⟨by omega, ?_⟩
  have := C108_replace c h hl hlo hf hv (x := x) (w := .struct x)
    (by
      simp only [MField.parse, MFieldTy.parse, Referenced.parse, Bool.false_eq_true, if_false]
      rw [hparse _ (by simp; omega), List.take_append_of_le_length (by omega),
        List.take_of_length_le (by omega), hx])
    hk
  rw [this]
  congr 2
  omega

namespace Ex

/-- A number, perhaps an item, a number. -/
def letter : Message :=
  .mk 40 "Letter".toList
    [ .mk "a".toList (.fixed .u8) false ⟨false, false⟩ .little,
      .mk "o".toList (.ref (.message item)) true ⟨true, false⟩ .little,
      .mk "z".toList (.fixed .u8) false ⟨false, false⟩ .little ] ⟨true, false⟩

def letterV (x : Nat) : Value :=
  .msg [("a".toList, .num 5), ("o".toList, .some (.msg [("x".toList, .num x), ("s".toList, .none)])),
    ("z".toList, .num 9)]

def itemO : OffEnv := [("x".toList, ⟨0, 2⟩, .unit), ("s".toList, ⟨2, 3⟩, .unit)]

def letterO : OffEnv :=
  [("a".toList, ⟨0, 1⟩, .unit), ("o".toList, ⟨1, 5⟩, .present (.msg itemO)), ("z".toList, ⟨5, 6⟩, .unit)]

theorem letter_parse :
    letter.parseOff ctx [5, 1, 7, 0, 0, 9, 77] = .ok ⟨6, (letterV 7, .msg letterO)⟩ := by
  rw [C35_exact]; rfl

/-- The number of the item begins at 2. -/
theorem letter_leads :
    Leads letter (letterV 7) (.msg letterO) 2 4 item [("x".toList, .num 7), ("s".toList, .none)] 0
      fun w => .msg [("a".toList, .num 5), ("o".toList, .some (.msg [("x".toList, w), ("s".toList, .none)])),
        ("z".toList, .num 9)] :=
  .present (i := 1) (lo := 0) (hi := 2) (r := ⟨1, 5⟩) (nm := "o".toList) (o := .msg itemO)
    (m := letter) (m₁ := item) (vs := [("a".toList, .num 5),
      ("o".toList, .some (.msg [("x".toList, .num 7), ("s".toList, .none)])), ("z".toList, .num 9)])
    (put := fun w => .msg [("x".toList, w), ("s".toList, .none)]) rfl rfl rfl
    (.here (i := 0) (nm := "x".toList) (r := ⟨0, 2⟩) (o := .unit) (offs := itemO)
      (vs := [("x".toList, .num 7), ("s".toList, .none)]) rfl)

/-- A buffer, then another. -/
def buffers : Message :=
  .mk 41 "Buffers".toList
    [ .mk "p".toList .payload false ⟨true, true⟩ .little,
      .mk "q".toList .payload false ⟨true, true⟩ .little ] ⟨true, true⟩

/-- A key and what it selects. -/
def chosen : Message :=
  .mk 42 "Chosen".toList
    [ .mk "k".toList (.ref (.struct keyS)) false ⟨false, false⟩ .little,
      .mk "u".toList (.union choice "k".toList 0) false ⟨true, false⟩ .little ] ⟨true, false⟩

end Ex

/-- 513 written over the 7 within the item. -/
example : Ex.letter.parse Ex.ctx [5, 1, 1, 2, 0, 9, 77] = .ok ⟨6, Ex.letterV 513⟩ :=
  (C108_number Ex.ctx Ex.letter_parse Ex.letter_leads (ty := .u16) rfl (k := 513) (by decide)).2

example : ∃ f old, Ex.item.fields[0]? = some f ∧
    [("x".toList, .num 7), ("s".toList, Value.none)][0]? = some (f.name, old) ∧
    f.parse Ex.ctx (Ex.ctx.emb Ex.item.id) [] [7, 0] = .ok ⟨2, old⟩ := by
  obtain ⟨-, -, -, f, old, h1, h2, h3, -⟩ := C108_find Ex.ctx Ex.letter_parse Ex.letter_leads
  exact ⟨f, old, h1, h2, h3⟩

example : Ex.letter.parseOff Ex.ctx [5, 1, 1, 2, 0, 9, 77] =
    .ok ⟨6, (Ex.letterV 513, Ex.letter.offsetsOf (Ex.letterV 513))⟩ :=
  C108_again Ex.ctx Ex.letter_parse Ex.letter_leads (by decide) (x := [1, 2]) (w := .num 513)
    (f := .mk "x".toList (.fixed .u16) false ⟨false, false⟩ .little) rfl rfl rfl (by
      rintro g hg u i h; cases List.mem_singleton.1 hg; cases h)

example : ∃ o', Ex.letter.parseOff Ex.ctx [5, 1, 1, 2, 0, 9, 77] = .ok ⟨6, (Ex.letterV 513, o')⟩ ∧
    ranges o' = ranges (.msg Ex.letterO) :=
  C108_stay Ex.ctx Ex.letter_parse Ex.letter_leads (by decide) (x := [1, 2]) (w := .num 513)
    (f := .mk "x".toList (.fixed .u16) false ⟨false, false⟩ .little) rfl rfl rfl rfl (by
      rintro g hg u i h; cases List.mem_singleton.1 hg; cases h)

/-- The string that was not there put into the item. -/
example : Ex.letter.parse Ex.ctx [5, 1, 7, 0, 1, 104, 0, 9, 77] =
    .ok ⟨8, .msg [("a".toList, .num 5),
      ("o".toList, .some (.msg [("x".toList, .num 7), ("s".toList, .some (.str [104]))])),
      ("z".toList, .num 9)]⟩ :=
  C108_replace Ex.ctx Ex.letter_parse (x := [1, 104, 0])
    (.present (i := 1) (lo := 2) (hi := 3) (r := ⟨1, 5⟩) (nm := "o".toList) (o := .msg Ex.itemO)
      (m := Ex.letter) (m₁ := Ex.item) (vs := [("a".toList, .num 5),
        ("o".toList, .some (.msg [("x".toList, .num 7), ("s".toList, .none)])), ("z".toList, .num 9)])
      (put := fun w => .msg [("x".toList, .num 7), ("s".toList, w)]) rfl rfl rfl
      (.here (i := 1) (nm := "s".toList) (r := ⟨2, 3⟩) (o := .unit) (offs := Ex.itemO)
        (vs := [("x".toList, .num 7), ("s".toList, .none)]) rfl))
    (by decide) (f := .mk "s".toList .nullTerminatedString true ⟨true, false⟩ .little) rfl (old := .none) rfl
    rfl (fun g hg => nomatch hg)

/-- The place must be before the end of the bytes: a buffer takes what is put after it. -/
example : Ex.buffers.parse Ex.ctx [1, 2] =
      .ok ⟨2, .msg [("p".toList, .buf [1, 2]), ("q".toList, .buf [])]⟩ ∧
    Ex.buffers.parse Ex.ctx (patch [1, 2] 2 2 [3]) =
      .ok ⟨3, .msg [("p".toList, .buf [1, 2, 3]), ("q".toList, .buf [])]⟩ := ⟨rfl, rfl⟩

/-- The key must stay: another one makes the bytes after it something else. -/
example : Ex.chosen.parse Ex.ctx [0, 9] =
      .ok ⟨2, .msg [("k".toList, .struct [0, 9]), ("u".toList, .union 0 .unit)]⟩ ∧
    Ex.chosen.parse Ex.ctx (patch [0, 9] 0 2 [1, 9]) = .err .truncated ∧
    Ex.chosen.parse Ex.ctx (patch [0, 9] 0 2 [0, 8]) =
      .ok ⟨2, .msg [("k".toList, .struct [0, 8]), ("u".toList, .union 0 .unit)]⟩ := ⟨rfl, rfl, rfl⟩

end Proto.Props
