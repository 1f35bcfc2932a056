import Mathlib.Data.List.Forall2
import Verif.Spec.Driver

/-!
# C57, C63: generation options, files written, build script
-/

namespace Proto

open Tpl Drv

theorem AllOk_append (fs : Fs) (t a b : List FsOp) :
    AllOk fs t (a ++ b) ↔ AllOk fs t a ∧ AllOk fs (t ++ a) b := by
  induction a generalizing t with
  | nil => simp [AllOk]
  | cons o a ih =>
    cases o <;> simp [AllOk, ih, and_assoc]

/-- A computation does the given operations: when they all succeed it does them all and ends with the
given outcome, otherwise it ends with an I/O error at the first one that fails. -/
structure Does (fs : Fs) (x : FsM α) (t : List FsOp) (ops : List FsOp) (r : Res PError α) :
    Prop where
  ok : AllOk fs t ops → x t = (t ++ ops, r)
  bad : ¬ AllOk fs t ops → ∃ a o b, ops = a ++ o :: b ∧ AllOk fs t a ∧ (∀ d, o ≠ .exists d) ∧
    fs (t ++ a) o = false ∧ x t = (t ++ a ++ [o], .err .io)

theorem Does.pre {fs : Fs} {x : FsM α} {t ops : List FsOp} {r : Res PError α} (h : Does fs x t ops r) :
    ∃ done, (x t).1 = t ++ done ∧ done <+: ops := by
  by_cases hok : AllOk fs t ops
  · exact ⟨ops, by rw [h.ok hok], List.prefix_refl _⟩
  · obtain ⟨a, o, b, rfl, -, -, -, e⟩ := h.bad hok
    exact ⟨a ++ [o], by rw [e, List.append_assoc], by simp⟩

theorem Does.lift (fs : Fs) (t : List FsOp) (r : Res PError α) : Does fs (FsM.lift r) t [] r :=
  ⟨fun _ => by simp [FsM.lift], fun h => absurd trivial h⟩

theorem Does.pure (fs : Fs) (t : List FsOp) (v : α) : Does fs (FsM.pure v) t [] (.ok v) :=
  Does.lift fs t (.ok v)

theorem Does.op (fs : Fs) (t : List FsOp) (o : FsOp) (ho : ∀ d, o ≠ .exists d) :
    Does fs (FsM.op fs o) t [o] (.ok ()) := by
  have e : AllOk fs t [o] ↔ fs t o = true := by cases o <;> simp_all [AllOk]
  refine ⟨fun h => ?_, fun h => ?_⟩
  · simp [FsM.op, e.mp h]
  · rw [e] at h
    exact ⟨[], o, [], rfl, trivial, ho, by simpa using h, by simp [FsM.op, h]⟩

theorem Does.bind {fs : Fs} {x : FsM α} {f : α → FsM β} {t a b : List FsOp} {v : α}
    {w : Res PError β}
    (hx : Does fs x t a (.ok v)) (hf : Does fs (f v) (t ++ a) b w) :
    Does fs (FsM.bind x f) t (a ++ b) w := by
  by_cases h : AllOk fs t a
  · have h1 := hx.ok h
    have e2 : FsM.bind x f t = f v (t ++ a) := by rw [FsM.bind, h1]
    refine ⟨fun hh => ?_, fun hh => ?_⟩
    · rw [e2, hf.ok ((AllOk_append ..).mp hh).2]; simp
    · obtain ⟨a', o, b', rfl, h2, ho, h3, h4⟩ := hf.bad fun h' => hh ((AllOk_append ..).mpr ⟨h, h'⟩)
      refine ⟨a ++ a', o, b', by simp, (AllOk_append ..).mpr ⟨h, h2⟩, ho, by rw [← h3]; simp, ?_⟩
      rw [e2, h4]
      simp
  · obtain ⟨a', o, b', rfl, h2, ho, h3, h4⟩ := hx.bad h
    refine ⟨fun hh => absurd ((AllOk_append ..).mp hh).1 h, fun _ => ?_⟩
    exact ⟨a', o, b' ++ b, by simp, h2, ho, h3, by rw [FsM.bind, h4]⟩

theorem Does.bind_err {fs : Fs} {r : Res PError α} {f : α → FsM β} {t : List FsOp}
    {w : Res PError β} (h : (∃ e, r = .err e ∧ w = .err e) ∨ (r = .panic ∧ w = .panic)) :
    Does fs (FsM.bind (FsM.lift r) f) t [] w := by
  have e : FsM.bind (FsM.lift r) f = FsM.lift w := by
    funext t
    obtain ⟨e, rfl, rfl⟩ | ⟨rfl, rfl⟩ := h <;> rfl
  rw [e]
  exact Does.lift ..

theorem write_does (fs : Fs) (out : Bytes) (f : File) (t : List FsOp) :
    Does fs (f.write fs out) t (if 1 < f.data.length then fileOps out f else [])
      (.ok (if 1 < f.data.length then some (Path.join out f.name) else none)) := by
  unfold File.write
  by_cases h : 1 < f.data.length
  · simp only [h, if_true, fileOps]
    have h2 : ∀ t, Does fs (FsM.bind (FsM.op fs (.write (Path.join out f.name) f.data))
          fun _ => FsM.pure (some (Path.join out f.name))) t
        [.write (Path.join out f.name) f.data] (.ok (some (Path.join out f.name))) := by
      intro t
      have := Does.bind (Does.op fs t (.write (Path.join out f.name) f.data) (by simp))
        (f := fun _ => FsM.pure (some (Path.join out f.name))) (Does.pure ..)
      simpa using this
    cases hs : subFolder f.name with
    | none => exact h2 t
    | some d =>
      exact Does.bind (f := fun _ => _) (Does.op fs t (.createDir (Path.join out d)) (by simp)) (h2 _)
  · simp only [h, if_false]
    exact Does.pure ..

theorem writeFiles_does (fs : Fs) (out : Bytes) (files : List File) (t : List FsOp) :
    Does fs (Protoc.writeFiles fs out files) t ((nonTrivial files).flatMap (fileOps out))
      (.ok ((nonTrivial files).map fun f => Path.join out f.name)) := by
  induction files generalizing t with
  | nil => exact Does.pure ..
  | cons f files ih =>
    have e0 : Protoc.writeFiles fs out (f :: files) = FsM.bind (f.write fs out) fun o =>
        FsM.bind (Protoc.writeFiles fs out files) fun rest =>
          match o with
          | some path => FsM.pure (path :: rest)
          | none => FsM.pure rest := rfl
    rw [e0]
    by_cases h : 1 < f.data.length
    · have e : nonTrivial (f :: files) = f :: nonTrivial files := by simp [nonTrivial, h]
      rw [e, List.flatMap_cons]
      have h1 := write_does fs out f t
      rw [if_pos h, if_pos h] at h1
      refine Does.bind h1 ?_
      have h2 := Does.bind (ih (t ++ fileOps out f))
        (f := fun rest => FsM.pure (Path.join out f.name :: rest)) (Does.pure ..)
      simpa using h2
    · have e : nonTrivial (f :: files) = nonTrivial files := by simp [nonTrivial, h]
      rw [e]
      have h1 := write_does fs out f t
      rw [if_neg h, if_neg h] at h1
      have h2 := Does.bind (ih (t ++ []))
        (f := fun rest => FsM.pure rest) (Does.pure ..)
      rw [List.append_nil (List.flatMap _ _)] at h2
      exact Does.bind (a := []) h1 h2

theorem umbrellaName_eq : Protoc.umbrellaName = utf8 "umbrella.rs" := by decide +kernel

theorem generateOne_eq (g : Generator) (fs : Fs) (out : Bytes) (c : Protoc) (p : Protocol)
    (t : List FsOp) (files : List File) (hg : g.generate p = .ok files) :
    Protoc.generateOne g fs out c p t =
      FsM.bind (if fs t (.exists (Path.join out (Name.utf8 p.name))) then FsM.pure () else
          FsM.op fs (.createDir (Path.join out (Name.utf8 p.name)))) (fun _ =>
        FsM.bind (Protoc.writeFiles fs (Path.join out (Name.utf8 p.name))
            (files.filter fun f => c.enabled f.ty)) (fun paths =>
          FsM.bind (FsM.lift (g.umbrella (Name.utf8 p.name) paths)) (fun u =>
            if 1 < u.length then
              FsM.bind (FsM.op fs (.write (Path.join (Path.join out (Name.utf8 p.name))
                  Protoc.umbrellaName) u)) (fun _ =>
                FsM.pure ⟨Name.utf8 p.name, Path.join (Path.join out (Name.utf8 p.name))
                  Protoc.umbrellaName⟩)
            else FsM.pure ⟨Name.utf8 p.name, Path.join out (Name.utf8 p.name)⟩)))
        (t ++ [.exists (Path.join out (Name.utf8 p.name))]) := by
  unfold Protoc.generateOne
  rw [hg]
  change FsM.bind _ _ t = _
  rw [FsM.bind, FsM.lift]
  dsimp only
  change FsM.bind _ _ t = _
  rw [FsM.bind, FsM.existsPath]
  dsimp only
  cases fs t (.exists (Path.join out (Name.utf8 p.name))) <;> rfl

/-- What is done for one protocol. -/
theorem generateOne_does (g : Generator) (fs : Fs) (out : Bytes) (c : Protoc) (p : Protocol)
    (t : List FsOp) :
    Does fs (Protoc.generateOne g fs out c p) t
      (plan g out c p (fs t (.exists (Path.join out (Name.utf8 p.name))))) (outcome g out c p) := by
  unfold outcome plan
  cases hg : g.generate p with
  | err e =>
    have e' : Protoc.generateOne g fs out c p = FsM.lift (.err e) := by
      funext t; unfold Protoc.generateOne; rw [hg]; rfl
    rw [e']; exact Does.lift ..
  | panic =>
    have e' : Protoc.generateOne g fs out c p = FsM.lift .panic := by
      funext t; unfold Protoc.generateOne; rw [hg]; rfl
    rw [e']; exact Does.lift ..
  | ok files =>
    have he := generateOne_eq g fs out c p t files hg
    dsimp only
    generalize Path.join out (Name.utf8 p.name) = dir at *
    have hw := writeFiles_does fs dir (files.filter fun f => c.enabled f.ty)
    generalize nonTrivial (files.filter fun f => c.enabled f.ty) = chosen at *
    have cons : ∀ {x : FsM Proto} {ops r}, Does fs x (t ++ [.exists dir]) ops r →
        Protoc.generateOne g fs out c p t = x (t ++ [.exists dir]) →
        Does fs (Protoc.generateOne g fs out c p) t (.exists dir :: ops) r := by
      intro x ops r k he
      refine ⟨fun h => ?_, fun h => ?_⟩
      · rw [he, k.ok h]; simp
      · obtain ⟨a, o, b, rfl, h2, ho, h3, h4⟩ := k.bad h
        exact ⟨.exists dir :: a, o, b, rfl, h2, ho, by rw [← h3]; simp, by rw [he, h4]; simp⟩
    refine cons ?_ he
    rw [List.append_assoc]
    refine Does.bind (v := ()) ?_ (Does.bind (v := chosen.map fun f => Path.join dir f.name)
      (hw _) ?_)
    · split
      · exact Does.pure ..
      · exact Does.op fs _ _ (by simp)
    · generalize t ++ [FsOp.exists dir] ++
        (if fs t (FsOp.exists dir) = true then [] else [FsOp.createDir dir]) ++
        List.flatMap (fileOps dir) chosen = t1
      cases hu : g.umbrella (Name.utf8 p.name) (chosen.map fun f => Path.join dir f.name) with
      | err e => exact Does.bind_err (.inl ⟨e, rfl, rfl⟩)
      | panic => exact Does.bind_err (.inr ⟨rfl, rfl⟩)
      | ok u =>
        rw [umbrellaName_eq]
        dsimp only
        refine Does.bind (a := []) (b := if 1 < u.length then
          [.write (Path.join dir (utf8 "umbrella.rs")) u] else []) (Does.lift fs t1 (.ok u)) ?_
        rw [List.append_nil]
        by_cases h1 : 1 < u.length
        · simp only [h1, if_true]
          exact Does.bind (b := [])
            (Does.op fs t1 (.write (Path.join dir (utf8 "umbrella.rs")) u) (by simp))
            (Does.pure fs _ (⟨Name.utf8 p.name, Path.join dir (utf8 "umbrella.rs")⟩ : Proto))
        · simp only [h1, if_false]
          exact Does.pure ..

/-- **C57.** Generating one protocol.  If every operation of the plan succeeds, exactly the plan is
done: the directory (made if missing), the enabled non-trivial files in generator order, then the
umbrella; the umbrella is reported, or the directory without one. -/
theorem C57_one_ok (g : Generator) (fs : Fs) (out : Bytes) (c : Protoc) (p : Protocol)
    (t : List FsOp) (there : Bool)
    (ht : there = fs t (.exists (Path.join out (Name.utf8 p.name))))
    (h : AllOk fs t (plan g out c p there)) :
    Protoc.generateOne g fs out c p t = (t ++ plan g out c p there, outcome g out c p) := by
  subst ht
  exact (generateOne_does g fs out c p t).ok h

/-- **C57.** If some operation of the plan fails, the first one that does is the last one done, and an
I/O error is reported. -/
theorem C57_first_failure (g : Generator) (fs : Fs) (out : Bytes) (c : Protoc) (p : Protocol)
    (t : List FsOp) (there : Bool)
    (ht : there = fs t (.exists (Path.join out (Name.utf8 p.name))))
    (h : ¬ AllOk fs t (plan g out c p there)) :
    ∃ a o b, plan g out c p there = a ++ o :: b ∧ AllOk fs t a ∧ (∀ d, o ≠ .exists d) ∧
      fs (t ++ a) o = false ∧
      Protoc.generateOne g fs out c p t = (t ++ a ++ [o], .err .io) := by
  subst ht
  exact (generateOne_does g fs out c p t).bad h

/-- **C57.** If some operation of the plan fails, an I/O error is reported: no success. -/
theorem C57_one_fails (g : Generator) (fs : Fs) (out : Bytes) (c : Protoc) (p : Protocol)
    (t : List FsOp) (there : Bool)
    (ht : there = fs t (.exists (Path.join out (Name.utf8 p.name))))
    (h : ¬ AllOk fs t (plan g out c p there)) :
    (Protoc.generateOne g fs out c p t).2 = .err .io := by
  obtain ⟨a, o, b, -, -, -, -, e⟩ := C57_first_failure g fs out c p t there ht h
  rw [e]

/-- **C57.** Whatever fails, nothing outside the plan is done, and it is done in order. -/
theorem C57_nothing_else (g : Generator) (fs : Fs) (out : Bytes) (c : Protoc) (p : Protocol)
    (t : List FsOp) :
    ∃ done, (Protoc.generateOne g fs out c p t).1 = t ++ done ∧
      done <+: plan g out c p (fs t (.exists (Path.join out (Name.utf8 p.name)))) :=
  (generateOne_does g fs out c p t).pre

/-- **C57.** Generating one protocol succeeds exactly when the generator does and every operation of
the plan does. -/
theorem C57_one_iff (g : Generator) (fs : Fs) (out : Bytes) (c : Protoc) (p : Protocol)
    (t t' : List FsOp) (r : Proto) (there : Bool)
    (ht : there = fs t (.exists (Path.join out (Name.utf8 p.name)))) :
    Protoc.generateOne g fs out c p t = (t', .ok r) ↔
      outcome g out c p = .ok r ∧ AllOk fs t (plan g out c p there) ∧
      t' = t ++ plan g out c p there := by
  by_cases h : AllOk fs t (plan g out c p there)
  · rw [C57_one_ok g fs out c p t there ht h]
    constructor
    · intro hh; injection hh with h1 h2; exact ⟨h2, h, h1.symm⟩
    · rintro ⟨h1, -, rfl⟩; rw [h1]
  · refine ⟨fun hh => ?_, fun hh => absurd hh.2.1 h⟩
    have := C57_one_fails g fs out c p t there ht h
    rw [hh] at this
    cases this

theorem generateAll_cons (g : Generator) (fs : Fs) (out : Bytes) (c : Protoc) (p : Protocol)
    (ps : List Protocol) :
    Protoc.generateAll g fs out c (p :: ps) = FsM.bind (Protoc.generateOne g fs out c p) fun x =>
      FsM.bind (Protoc.generateAll g fs out c ps) fun xs => FsM.pure (x :: xs) := rfl

theorem FsM.bind_eq_ok {x : FsM α} {f : α → FsM β} {t t' : List FsOp} {v : β} :
    FsM.bind x f t = (t', .ok v) ↔ ∃ t1 a, x t = (t1, .ok a) ∧ f a t1 = (t', .ok v) := by
  unfold FsM.bind
  cases hx : x t with
  | mk t1 r =>
    cases r with
    | ok a => exact ⟨fun h => ⟨t1, a, rfl, h⟩, fun ⟨_, _, h1, h2⟩ => by cases h1; exact h2⟩
    | err e => simp
    | panic => simp

/-- **C57.** Generating all protocols succeeds exactly when generating each of them in turn does;
the operations done are those of the plans one after the other, and there is one report per
protocol, in order. -/
theorem C57_all (g : Generator) (fs : Fs) (out : Bytes) (c : Protoc) (t t' : List FsOp)
    (rs : List Proto) :
    Protoc.generate g fs out c t = (t', .ok rs) ↔
      ∃ ops, t' = t ++ ops ∧ Plans g fs out c t c.protocols ops rs := by
  unfold Protoc.generate
  generalize c.protocols = ps
  induction ps generalizing t t' rs with
  | nil =>
    have e : Protoc.generateAll g fs out c [] t = (t, .ok []) := rfl
    rw [e]
    constructor
    · intro h; cases h; exact ⟨[], by simp, .nil t⟩
    · rintro ⟨ops, rfl, h⟩; cases h; simp
  | cons p ps ih =>
    rw [generateAll_cons, FsM.bind_eq_ok]
    constructor
    · rintro ⟨t1, r, h1, h2⟩
      rw [FsM.bind_eq_ok] at h2
      obtain ⟨t2, rs', h2, h3⟩ := h2
      cases h3
      obtain ⟨ha, hb, rfl⟩ := (C57_one_iff g fs out c p t t1 r _ rfl).mp h1
      obtain ⟨ops, rfl, hP⟩ := (ih ..).mp h2
      exact ⟨_, by rw [List.append_assoc], .cons _ rfl ha hb hP⟩
    · rintro ⟨ops, rfl, h⟩
      cases h with
      | cons there ht hr hok rest =>
        refine ⟨_, _, (C57_one_iff g fs out c p t _ _ there ht).mpr ⟨hr, hok, rfl⟩, ?_⟩
        rw [FsM.bind_eq_ok]
        exact ⟨_, _, (ih ..).mpr ⟨_, rfl, rest⟩, by simp [FsM.pure]⟩

/-- **C57.** When generation stops early, the protocols before the one that failed are complete, and
nothing is done for those after it; the error is that of the one that failed. -/
theorem C57_stops (g : Generator) (fs : Fs) (out : Bytes) (c : Protoc) (t t' : List FsOp)
    (r : Res PError (List Proto)) (h : Protoc.generate g fs out c t = (t', r))
    (hr : ∀ rs, r ≠ .ok rs) :
    ∃ before p after ops rs done, c.protocols = before ++ p :: after ∧
      Plans g fs out c t before ops rs ∧ t' = t ++ ops ++ done ∧
      (∃ x, Protoc.generateOne g fs out c p (t ++ ops) = (t', x) ∧
        ((∃ e, x = .err e ∧ r = .err e) ∨ (x = .panic ∧ r = .panic))) ∧
      done <+: plan g out c p (fs (t ++ ops) (.exists (Path.join out (Name.utf8 p.name)))) := by
  unfold Protoc.generate at h
  generalize c.protocols = ps at h ⊢
  induction ps generalizing t t' r with
  | nil => cases h; exact absurd rfl (hr [])
  | cons p ps ih =>
    rw [generateAll_cons] at h
    have here : (∃ x, Protoc.generateOne g fs out c p t = (t', x) ∧
          ((∃ e, x = .err e ∧ r = .err e) ∨ (x = .panic ∧ r = .panic))) →
        ∃ before p' after ops rs done, p :: ps = before ++ p' :: after ∧
          Plans g fs out c t before ops rs ∧ t' = t ++ ops ++ done ∧
          (∃ x, Protoc.generateOne g fs out c p' (t ++ ops) = (t', x) ∧
            ((∃ e, x = .err e ∧ r = .err e) ∨ (x = .panic ∧ r = .panic))) ∧
          done <+: plan g out c p'
            (fs (t ++ ops) (.exists (Path.join out (Name.utf8 p'.name)))) := fun hx => by
      obtain ⟨done, h1, h2⟩ := C57_nothing_else g fs out c p t
      obtain ⟨x, hx1, hx2⟩ := hx
      exact ⟨[], p, ps, [], [], done, rfl, .nil t, by rw [hx1] at h1; simpa using h1,
        ⟨x, by simpa using hx1, hx2⟩, by simpa using h2⟩
    rw [FsM.bind] at h
    cases h1 : Protoc.generateOne g fs out c p t with
    | mk t1 r1 =>
      rw [h1] at h here
      cases r1 with
      | err e => cases h; exact here ⟨_, rfl, .inl ⟨e, rfl, rfl⟩⟩
      | panic => cases h; exact here ⟨_, rfl, .inr ⟨rfl, rfl⟩⟩
      | ok x =>
        dsimp only at h
        rw [FsM.bind] at h
        obtain ⟨ha, hb, rfl⟩ := (C57_one_iff g fs out c p t t1 x _ rfl).mp h1
        cases h2 : Protoc.generateAll g fs out c ps (t ++ plan g out c p
            (fs t (.exists (Path.join out (Name.utf8 p.name))))) with
        | mk t2 r2 =>
          rw [h2] at h
          have key : (∀ rs, r2 ≠ .ok rs) → t2 = t' ∧
              ∀ x : Res PError Proto, ((∃ e, x = .err e ∧ r2 = .err e) ∨ (x = .panic ∧ r2 = .panic)) →
                (∃ e, x = .err e ∧ r = .err e) ∨ (x = .panic ∧ r = .panic) := by
            intro hh
            cases r2 with
            | ok rs => exact absurd rfl (hh rs)
            | err e => cases h; exact ⟨rfl, by rintro x (⟨e', rfl, h⟩ | ⟨-, h⟩) <;> cases h; exact .inl ⟨_, rfl, rfl⟩⟩
            | panic => cases h; exact ⟨rfl, by rintro x (⟨e', rfl, h⟩ | ⟨rfl, -⟩); cases h; exact .inr ⟨rfl, rfl⟩⟩
          have hr2 : ∀ rs, r2 ≠ .ok rs := by
            rintro rs rfl
            cases h
            exact hr _ rfl
          obtain ⟨rfl, key2⟩ := key hr2
          obtain ⟨before, p', after, ops, rs, done, e1, e2, e3, e4, e5⟩ := ih _ _ _ hr2 h2
          refine ⟨p :: before, p', after, _, _, done, by rw [e1]; rfl, .cons _ rfl ha hb e2, ?_, ?_,
            ?_⟩
          · rw [e3]; simp
          · obtain ⟨x, hx1, hx2⟩ := e4
            exact ⟨x, by rw [← List.append_assoc]; exact hx1, key2 x hx2⟩
          · rw [← List.append_assoc]; exact e5

/-- **C57.** Which option selects which kind of file. -/
theorem C57_kinds (ps : List Protocol) (w r e s m u : Bool) (c : Protoc)
    (hc : c = (((((((Protoc.new ps).setWritesMessages w).setReadsMessages r).setUseEnums
      e).setUseStructs s).setUseMessages m).setUseUnions u)) :
    c.protocols = ps ∧ c.enabled .messageWriting = w ∧ c.enabled .messageReading = r ∧
      c.enabled .enum = e ∧ c.enabled .structure = s ∧ c.enabled .message = m ∧
      c.enabled .union = u := by
  subst hc; exact ⟨rfl, rfl, rfl, rfl, rfl, rfl, rfl⟩

example (ps : List Protocol) :
    (((((((Protoc.new ps).setWritesMessages true).setReadsMessages false).setUseEnums true).setUseStructs
      true).setUseMessages false).setUseUnions true).enabled .message = false :=
  (C57_kinds ps true false true true false true _ rfl).2.2.2.2.2.1

/-- **C57.** Each option changes its own kind of file and nothing else, whatever was set before. -/
theorem C57_setters (c : Protoc) (b : Bool) (k : FileType) :
    (c.setWritesMessages b).enabled k = (if k = .messageWriting then b else c.enabled k) ∧
    (c.setReadsMessages b).enabled k = (if k = .messageReading then b else c.enabled k) ∧
    (c.setUseEnums b).enabled k = (if k = .enum then b else c.enabled k) ∧
    (c.setUseStructs b).enabled k = (if k = .structure then b else c.enabled k) ∧
    (c.setUseMessages b).enabled k = (if k = .message then b else c.enabled k) ∧
    (c.setUseUnions b).enabled k = (if k = .union then b else c.enabled k) ∧
    (c.setWritesMessages b).protocols = c.protocols ∧
    (c.setReadsMessages b).protocols = c.protocols ∧ (c.setUseEnums b).protocols = c.protocols ∧
    (c.setUseStructs b).protocols = c.protocols ∧ (c.setUseMessages b).protocols = c.protocols ∧
    (c.setUseUnions b).protocols = c.protocols := by
  cases k <;> exact ⟨rfl, rfl, rfl, rfl, rfl, rfl, rfl, rfl, rfl, rfl, rfl, rfl⟩

/-- **C57.** Without options: everything except reading and writing of messages. -/
theorem C57_defaults (ps : List Protocol) (k : FileType) :
    (Protoc.new ps).enabled k = true ↔ k ≠ .messageWriting ∧ k ≠ .messageReading := by
  cases k <;> simp [Protoc.new, Protoc.enabled]

/-- **C57.** A file system with directories: what a plan needs for two files of the same folder is
impossible, as making the folder a second time fails. -/
theorem C57_folder_twice (fs : Fs) (g : Generator) (out : Bytes) (c : Protoc) (p : Protocol)
    (t : List FsOp)
    (hfs : ∀ t d, .createDir d ∈ t → fs t (.createDir d) = false)
    (files a b d : List File) (x y : File) (sub : Bytes)
    (hg : g.generate p = .ok files)
    (hfiles : nonTrivial (files.filter fun f => c.enabled f.ty) = a ++ x :: b ++ y :: d)
    (hx : subFolder x.name = some sub) (hy : subFolder y.name = some sub) :
    (Protoc.generateOne g fs out c p t).2 = .err .io := by
  refine C57_one_fails g fs out c p t _ rfl fun h => ?_
  simp only [plan, hg, hfiles] at h
  generalize Path.join out (Name.utf8 p.name) = dir at h
  simp only [List.flatMap_append, List.flatMap_cons] at h
  rw [AllOk] at h
  have hy' := ((AllOk_append ..).mp ((AllOk_append ..).mp
    ((AllOk_append ..).mp ((AllOk_append ..).mp h).1).2).2).1
  have e : fileOps dir y = [.createDir (Path.join dir sub), .write (Path.join dir y.name) y.data] := by
    simp [fileOps, hy]
  rw [e, AllOk] at hy'
  · have h1 := hy'.1
    rw [hfs] at h1
    · cases h1
    · simp [fileOps, hx]
  · simp

/-- **C63.** The build script succeeds exactly when loading, compiling and generating all do, and
then prints one environment variable per generated protocol, in order. -/
theorem C63_prints (p : Profile) (g : Generator) (fs : Fs) (load : Option Loader)
    (configure : Protoc → Protoc) (outDir : Option Bytes) (t : List FsOp) (lines : List Bytes) :
    generateRust p g fs load configure outDir = (t, .ok lines) ↔
      ∃ loader protocols w out rs, load = some loader ∧ outDir = some out ∧
        loader.compile p SimpleImportSolver.default ⟨0, []⟩ = .ok (protocols, w) ∧
        (configure (Protoc.new protocols)).generate g fs out [] = (t, .ok rs) ∧
        lines = rs.map fun r => utf8 "cargo::rustc-env=BP3D_PROTOC_" ++
          r.name.map (fun c => if 'a'.toNat ≤ c.toNat ∧ c.toNat ≤ 'z'.toNat then c - 32 else c) ++
          utf8 "=" ++ r.path := by
  have e1 : utf8 "cargo::rustc-env=BP3D_PROTOC_" = envPrefix := by decide +kernel
  have e2 : utf8 "=" = [0x3d] := by decide +kernel
  have e3 : ∀ b : UInt8, (if 'a'.toNat ≤ b.toNat ∧ b.toNat ≤ 'z'.toNat then b - 32 else b) =
      if 0x61 ≤ b ∧ b ≤ 0x7a then b - 0x20 else b := fun b => rfl
  simp only [e1, e2, e3]
  unfold generateRust
  cases load with
  | none => simp
  | some loader =>
    simp only [Option.some.injEq]
    cases hc : loader.compile p SimpleImportSolver.default ⟨0, []⟩ with
    | err e => simp [hc]
    | panic => simp [hc]
    | ok pw =>
      obtain ⟨protocols, w⟩ := pw
      cases outDir with
      | none => simp
      | some out =>
        dsimp only
        cases hg : (configure (Protoc.new protocols)).generate g fs out [] with
        | mk t' r =>
          cases r with
          | err e =>
            constructor
            · intro h; cases h
            · rintro ⟨_, _, _, _, _, rfl, h1, h2, h3, -⟩
              cases h1; rw [hc] at h2; cases h2
              rw [hg] at h3; cases h3
          | panic =>
            constructor
            · intro h; cases h
            · rintro ⟨_, _, _, _, _, rfl, h1, h2, h3, -⟩
              cases h1; rw [hc] at h2; cases h2
              rw [hg] at h3; cases h3
          | ok rs =>
            constructor
            · intro h; cases h
              exact ⟨loader, protocols, w, out, rs, rfl, rfl, hc, hg, rfl⟩
            · rintro ⟨_, _, _, _, _, rfl, h1, h2, h3, rfl⟩
              cases h1; rw [hc] at h2; cases h2
              rw [hg] at h3; cases h3
              rfl

theorem outcome_name (g : Generator) (out : Bytes) (c : Protoc) (p : Protocol) (r : Proto)
    (h : outcome g out c p = .ok r) : r.name = Name.utf8 p.name := by
  unfold outcome at h
  cases hg : g.generate p with
  | err e => simp [hg] at h
  | panic => simp [hg] at h
  | ok files =>
    simp only [hg] at h
    split at h
    · cases h; rfl
    · cases h
    · cases h

/-- **C57.** One report per protocol, in order, under its name. -/
theorem C57_reports (g : Generator) (fs : Fs) (out : Bytes) (c : Protoc) (t t' : List FsOp)
    (rs : List Proto) (h : Protoc.generate g fs out c t = (t', .ok rs)) :
    rs.map (·.name) = c.protocols.map fun p => Name.utf8 p.name := by
  obtain ⟨ops, -, hP⟩ := (C57_all ..).mp h
  clear h
  generalize c.protocols = ps at hP
  induction hP with
  | nil => rfl
  | cons there ht hr hok rest ih => rw [List.map_cons, List.map_cons, ih, outcome_name _ _ _ _ _ hr]

/-- **C63.** One line per protocol loaded, in order; with options that keep the protocols. -/
theorem C63_one_per_protocol (p : Profile) (g : Generator) (fs : Fs) (load : Option Loader)
    (configure : Protoc → Protoc) (outDir : Option Bytes) (t : List FsOp) (lines : List Bytes)
    (hc : ∀ c, (configure c).protocols = c.protocols)
    (h : generateRust p g fs load configure outDir = (t, .ok lines)) :
    ∃ loader protocols w, load = some loader ∧
      loader.compile p SimpleImportSolver.default ⟨0, []⟩ = .ok (protocols, w) ∧
      List.Forall₂ (fun (q : Protocol) l => ∃ path, l = utf8 "cargo::rustc-env=BP3D_PROTOC_" ++
        (Name.utf8 q.name).map
          (fun c => if 'a'.toNat ≤ c.toNat ∧ c.toNat ≤ 'z'.toNat then c - 32 else c) ++
        utf8 "=" ++ path) protocols lines := by
  obtain ⟨loader, protocols, w, out, rs, h1, -, h2, h3, rfl⟩ := (C63_prints ..).mp h
  refine ⟨loader, protocols, w, h1, h2, ?_⟩
  have hn := C57_reports _ _ _ _ _ _ _ h3
  rw [hc] at hn
  have : (Protoc.new protocols).protocols = protocols := rfl
  rw [this] at hn
  clear h h1 h2 h3 this
  induction protocols generalizing rs with
  | nil => cases rs with
    | nil => exact .nil
    | cons r rs => cases hn
  | cons q qs ih => cases rs with
    | nil => cases hn
    | cons r rs =>
      rw [List.map_cons, List.map_cons] at hn
      injection hn with h1 h2
      exact .cons ⟨r.path, by dsimp only; rw [h1]⟩ (ih _ h2)

/-- **C57.** The folder of a file: what precedes the first slash. -/
theorem C57_folder (a b : Bytes) (ha : 0x2f ∉ a) :
    subFolder (a ++ 0x2f :: b) = some a ∧ subFolder a = none := by
  induction a with
  | nil => simp [subFolder]
  | cons c a ih =>
    simp only [List.mem_cons, not_or] at ha
    have hc : c ≠ 0x2f := fun h => ha.1 h.symm
    simp [subFolder, hc, ih ha.2]

example : subFolder (utf8 "s/w.rs") = some (utf8 "s") := (C57_folder (utf8 "s") (utf8 "w.rs") (by decide)).1

/-- **C57.** Where files go: in the folder, under their name; an absolute name is kept. -/
theorem C57_join (a b : Bytes) (x : UInt8) (hx : x ≠ 0x2f) :
    (b.head? ≠ some 0x2f → Path.join (a ++ [x]) b = a ++ [x] ++ utf8 "/" ++ b ∧
      Path.join (a ++ utf8 "/") b = a ++ utf8 "/" ++ b ∧ Path.join [] b = b) ∧
    Path.join a (utf8 "/" ++ b) = utf8 "/" ++ b := by
  have e : utf8 "/" = [0x2f] := by decide +kernel
  rw [e]
  refine ⟨fun hb => ⟨?_, ?_, ?_⟩, ?_⟩ <;> simp_all [Path.join]

namespace Drv.Ex

/-- A generator of five files and an umbrella. -/
def gen : Generator where
  generate p := if p.name = [] then .err .generator else .ok [
    ⟨utf8 "m.rs", utf8 "mm", .message⟩, ⟨utf8 "r.rs", utf8 "rr", .messageReading⟩,
    ⟨utf8 "s/w.rs", utf8 "ww", .messageWriting⟩, ⟨utf8 "e.rs", utf8 "e", .enum⟩,
    ⟨utf8 "u.rs", utf8 "uu", .union⟩]
  umbrella n paths := .ok (n ++ paths.flatten)

/-- An empty protocol. -/
def proto (n : Name) : Protocol := ⟨n, .little, [], [], [], [], [], [], [], [], []⟩

/-- Nothing exists at first; a directory can be made once. -/
def fs : Fs := fun t o =>
  match o with
  | .exists d => .createDir d ∈ t
  | .createDir d => .createDir d ∉ t
  | .write _ _ => true

/-- Two protocols: reading is off, writing on, unions off; one file is too short. -/
example : Protoc.generate gen fs (utf8 "o")
    (((Protoc.new [proto ['A'], proto ['b']]).setWritesMessages true).setUseUnions false) [] =
    ([.exists (utf8 "o/A"), .createDir (utf8 "o/A"), .write (utf8 "o/A/m.rs") (utf8 "mm"),
      .createDir (utf8 "o/A/s"), .write (utf8 "o/A/s/w.rs") (utf8 "ww"),
      .write (utf8 "o/A/umbrella.rs") (utf8 "Ao/A/m.rso/A/s/w.rs"),
      .exists (utf8 "o/b"), .createDir (utf8 "o/b"), .write (utf8 "o/b/m.rs") (utf8 "mm"),
      .createDir (utf8 "o/b/s"), .write (utf8 "o/b/s/w.rs") (utf8 "ww"),
      .write (utf8 "o/b/umbrella.rs") (utf8 "bo/b/m.rso/b/s/w.rs")],
     .ok [⟨utf8 "A", utf8 "o/A/umbrella.rs"⟩, ⟨utf8 "b", utf8 "o/b/umbrella.rs"⟩]) := by
  decide +kernel

/-- The same protocol twice: the second time, the sub-folder cannot be made. -/
example : (Protoc.generate gen fs (utf8 "o")
    ((Protoc.new [proto ['A'], proto ['A']]).setWritesMessages true) []).2 = .err .io := by
  decide +kernel

/-- A generator error before anything is done. -/
example : Protoc.generate gen fs (utf8 "o") (Protoc.new [proto []]) [] = ([], .err .generator) := by
  decide +kernel

/-- A plan all of whose operations succeed, and one that does not. -/
example : AllOk fs [] (plan gen (utf8 "o") (Protoc.new []) (proto ['A']) false) ∧
    ¬ AllOk fs [] [.createDir [], .createDir []] := by
  have e : plan gen (utf8 "o") (Protoc.new []) (proto ['A']) false =
    [.exists (utf8 "o/A"), .createDir (utf8 "o/A"), .write (utf8 "o/A/m.rs") (utf8 "mm"),
     .write (utf8 "o/A/u.rs") (utf8 "uu"),
     .write (utf8 "o/A/umbrella.rs") (utf8 "Ao/A/m.rso/A/u.rs")] := by decide +kernel
  rw [e]
  simp [AllOk, fs]

/-- **C63.** Two protocols whose names differ in case only: the same variable is set twice. -/
example : generateRust .checked gen fs
    (some ⟨[{ name := ['a'] }, { name := ['A'] }], []⟩) id (some (utf8 "/o")) =
    ([.exists (utf8 "/o/a"), .createDir (utf8 "/o/a"), .write (utf8 "/o/a/m.rs") (utf8 "mm"),
      .write (utf8 "/o/a/u.rs") (utf8 "uu"),
      .write (utf8 "/o/a/umbrella.rs") (utf8 "a/o/a/m.rs/o/a/u.rs"),
      .exists (utf8 "/o/A"), .createDir (utf8 "/o/A"), .write (utf8 "/o/A/m.rs") (utf8 "mm"),
      .write (utf8 "/o/A/u.rs") (utf8 "uu"),
      .write (utf8 "/o/A/umbrella.rs") (utf8 "A/o/A/m.rs/o/A/u.rs")],
     .ok [utf8 "cargo::rustc-env=BP3D_PROTOC_A=/o/a/umbrella.rs",
          utf8 "cargo::rustc-env=BP3D_PROTOC_A=/o/A/umbrella.rs"]) := by
  decide +kernel

end Drv.Ex

end Proto
