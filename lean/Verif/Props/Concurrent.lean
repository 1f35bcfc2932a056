import Verif.Props.Recovery
import Verif.Spec.Concurrent

/-!
# C112: builds running at the same time
-/

namespace Proto

open Tpl Drv

theorem of_append (a b : Schedule) (i : Nat) : Schedule.of (a ++ b) i = Schedule.of a i ++ Schedule.of b i :=
  List.filterMap_append

theorem of_cons_self (i : Nat) (o : FsOp) (e : Schedule) :
    Schedule.of ((i, o) :: e) i = o :: Schedule.of e i := by
  simp [Schedule.of]

theorem of_cons_ne {i j : Nat} (h : j ≠ i) (o : FsOp) (e : Schedule) :
    Schedule.of ((j, o) :: e) i = Schedule.of e i := by
  simp [Schedule.of, h]

theorem ops_append (a b : Schedule) : Schedule.ops (a ++ b) = Schedule.ops a ++ Schedule.ops b := by
  simp [Schedule.ops]

theorem mem_of {e : Schedule} {i : Nat} {o : FsOp} : o ∈ e.of i ↔ (i, o) ∈ e := by
  simp [Schedule.of, List.mem_filterMap]

/-- Where an operation of a build is in what all of them did. -/
theorem locate {e : Schedule} {i : Nat} {t r : List FsOp} {o : FsOp} (h : e.of i = t ++ o :: r) :
    ∃ a b, e = a ++ (i, o) :: b ∧ Schedule.of a i = t ∧ Schedule.of b i = r := by
  induction e generalizing t with
  | nil => simp [Schedule.of] at h
  | cons x e ih =>
    obtain ⟨j, o'⟩ := x
    by_cases hj : j = i
    · subst hj
      rw [of_cons_self] at h
      cases t with
      | nil =>
        simp only [List.nil_append, List.cons.injEq] at h
        obtain ⟨rfl, rfl⟩ := h
        exact ⟨[], e, rfl, rfl, rfl⟩
      | cons y t =>
        simp only [List.cons_append, List.cons.injEq] at h
        obtain ⟨rfl, h⟩ := h
        obtain ⟨a, b, rfl, rfl, hb⟩ := ih h
        exact ⟨(j, o') :: a, b, rfl, of_cons_self .., hb⟩
    · rw [of_cons_ne hj] at h
      obtain ⟨a, b, rfl, ha, hb⟩ := ih h
      exact ⟨(j, o') :: a, b, rfl, by rw [of_cons_ne hj, ha], hb⟩

/-- Where the first operation of a build is. -/
theorem first_unique {a b a' b' : Schedule} {i : Nat} {o o' : FsOp}
    (h : a ++ (i, o) :: b = a' ++ (i, o') :: b') (ha : a.of i = []) (ha' : a'.of i = []) : a = a' := by
  induction a generalizing a' with
  | nil =>
    cases a' with
    | nil => rfl
    | cons x a' =>
      simp only [List.nil_append, List.cons_append, List.cons.injEq] at h
      obtain ⟨rfl, -⟩ := h
      rw [of_cons_self] at ha'
      cases ha'
  | cons x a ih =>
    cases a' with
    | nil =>
      simp only [List.nil_append, List.cons_append, List.cons.injEq] at h
      obtain ⟨rfl, -⟩ := h
      rw [of_cons_self] at ha
      cases ha
    | cons x' a' =>
      simp only [List.cons_append, List.cons.injEq] at h
      obtain ⟨rfl, h⟩ := h
      obtain ⟨j, q⟩ := x
      by_cases hj : j = i
      · subst hj
        rw [of_cons_self] at ha
        cases ha
      · rw [of_cons_ne hj] at ha ha'
        rw [ih h ha ha']

/-- What an operation leaves where it does nothing. -/
theorem after_same (d : Disk) (o : FsOp) {q : Bytes} (h : ∀ path, o = .createDir path → path ≠ q)
    (h' : ∀ path data, o = .write path data → path ≠ q) : d.after o q = d q := by
  cases o with
  | «exists» => rfl
  | createDir path =>
    simp only [Disk.after]
    split
    · rw [Disk.put, if_neg (h _ rfl).symm]
    · rfl
  | write path data =>
    simp only [Disk.after]
    split
    · rw [Disk.put, if_neg (h' _ _ rfl).symm]
    · rfl

theorem run_cons (d : Disk) (o : FsOp) (ops : List FsOp) : d.run (o :: ops) = (d.after o).run ops := rfl

theorem run_same (d : Disk) (ops : List FsOp) {q : Bytes} (h : ∀ path, .createDir path ∈ ops → path ≠ q)
    (h' : ∀ path data, .write path data ∈ ops → path ≠ q) : d.run ops q = d q := by
  induction ops generalizing d with
  | nil => rfl
  | cons o ops ih =>
    rw [run_cons, ih _ (fun p hp => h p (by simp [hp])) fun p x hp => h' p x (by simp [hp])]
    exact after_same d o (fun p hp => h p (by simp [hp])) fun p x hp => h' p x (by simp [hp])

/-- A path whose contents satisfy something keeps satisfying it, when what is put there does. -/
theorem run_keeps (P : Option Entry → Prop) (d : Disk) (ops : List FsOp) {q : Bytes}
    (h : .createDir q ∈ ops → P (some .dir)) (h' : ∀ data, .write q data ∈ ops → P (some (.file data)))
    (h0 : P (d q)) : P (d.run ops q) := by
  induction ops generalizing d with
  | nil => exact h0
  | cons o ops ih =>
    rw [run_cons]
    refine ih _ (fun hp => h (by simp [hp])) (fun x hp => h' x (by simp [hp])) ?_
    cases o with
    | «exists» => exact h0
    | createDir path =>
      simp only [Disk.after]
      split
      · unfold Disk.put
        split
        · rename_i e; subst e; exact h (by simp)
        · exact h0
      · exact h0
    | write path data =>
      simp only [Disk.after]
      split
      · unfold Disk.put
        split
        · rename_i e; subst e; exact h' _ (by simp)
        · exact h0
      · exact h0

/-- What builds do. -/
theorem runs_owned {bs : List Build} {names : List Bytes} {out : Bytes} {d : Disk} {envs : Nat → Fs}
    {e : Schedule} (hout : DirPath out) (hN : ∀ n ∈ names, EntryName n)
    (hb : ∀ b ∈ bs, Sound names out b) (h : Runs bs out d envs e) : ∀ o ∈ e.ops, Owned names out o := by
  intro o ho
  obtain ⟨⟨i, o'⟩, hm, rfl⟩ := List.mem_map.1 ho
  have hi := h.known _ hm
  have hbi : bs[i]? = some bs[i] := List.getElem?_eq_getElem hi
  have hs := hb bs[i] (List.getElem_mem hi)
  exact generate_owned hout hs.flat hN hs.named _ ((h.program i _ hbi).subset (mem_of.2 hm))

/-- A directory stays. -/
theorem dir_stays {names : List Bytes} {out : Bytes} {d : Disk} {ops : List FsOp} {n : Bytes}
    (hn : EntryName n) (ho : ∀ o ∈ ops, Owned names out o) (h : d (sub out n) = some .dir) :
    d.run ops (sub out n) = some .dir := by
  refine run_keeps (· = some .dir) d ops (fun _ => rfl) (fun data hm => ?_) h
  obtain ⟨m, _, f, hf, e⟩ := ho _ hm
  exact absurd e.symm (sub_sub_ne_sub hf.2.1 hn.2.1)

/-- A directory that appears was made. -/
theorem dir_made {names : List Bytes} {out : Bytes} {n : Bytes} (hn : EntryName n) {d : Disk}
    {e : Schedule} (ho : ∀ o ∈ e.ops, Owned names out o) (h0 : d (sub out n) = none)
    (h : d.run e.ops (sub out n) ≠ none) :
    ∃ (a : Schedule) (j : Nat) (b : Schedule), e = a ++ (j, .createDir (sub out n)) :: b ∧
      (d.run a.ops).ok (.createDir (sub out n)) = true := by
  induction e generalizing d with
  | nil => exact absurd h0 h
  | cons x e ih =>
    obtain ⟨j, o⟩ := x
    by_cases hc : o = .createDir (sub out n) ∧ d.ok (.createDir (sub out n)) = true
    · obtain ⟨rfl, hc⟩ := hc
      exact ⟨[], j, e, rfl, hc⟩
    · have h1 : d.after o (sub out n) = none := by
        cases o with
        | «exists» => exact h0
        | createDir path =>
          by_cases hp : path = sub out n
          · subst hp
            have : ¬ d.ok (.createDir (sub out n)) = true := fun hh => hc ⟨rfl, hh⟩
            simp only [Disk.after, if_neg this]
            exact h0
          · rw [after_same _ _ (by rintro _ ⟨⟩; exact hp) (by rintro _ _ ⟨⟩)]
            exact h0
        | write path data =>
          obtain ⟨m, _, f, hf, rfl⟩ := ho (.write path data) (by simp [Schedule.ops])
          rw [after_same _ _ (by rintro _ ⟨⟩) (by rintro _ _ ⟨⟩; exact sub_sub_ne_sub hf.2.1 hn.2.1)]
          exact h0
      obtain ⟨a, j', b, rfl, hok⟩ := ih (fun o' h' => ho o' (List.mem_cons_of_mem _ h')) h1 h
      exact ⟨(j, o) :: a, j', b, rfl, hok⟩

theorem owned_left {names : List Bytes} {out : Bytes} {a b : Schedule}
    (h : ∀ o ∈ Schedule.ops (a ++ b), Owned names out o) : ∀ o ∈ a.ops, Owned names out o := fun o ho =>
  h o (by rw [ops_append]; exact List.mem_append_left _ ho)

theorem owned_right {names : List Bytes} {out : Bytes} {a b : Schedule}
    (h : ∀ o ∈ Schedule.ops (a ++ b), Owned names out o) : ∀ o ∈ b.ops, Owned names out o := fun o ho =>
  h o (by rw [ops_append]; exact List.mem_append_right _ ho)

theorem generates {g : Generator} {out : Bytes} {c : Protoc} {p : Protocol} {r : Proto}
    (ho : outcome g out c p = .ok r) : ∃ files, g.generate p = .ok files := by
  unfold outcome at ho
  cases hgen : g.generate p with
  | ok files => exact ⟨files, rfl⟩
  | err e => rw [hgen] at ho; cases ho
  | panic => rw [hgen] at ho; cases ho

/-- Once the directory is there, writing a file in it does not fail. -/
theorem write_answers {bs : List Build} {names : List Bytes} {out : Bytes} {d : Disk} {envs : Nat → Fs}
    {e : Schedule} (hout : DirPath out) (hN : ∀ n ∈ names, EntryName n)
    (hb : ∀ b ∈ bs, Sound names out b) (hr : Ready names out d) (h : Runs bs out d envs e)
    {a w c : Schedule} {i : Nat} {n f data : Bytes} (hn : n ∈ names) (hf : EntryName f)
    (he : e = a ++ (w ++ (i, .write (sub (sub out n) f) data) :: c))
    (hd : d.run a.ops (sub out n) = some .dir) :
    envs i (Schedule.of (a ++ w) i) (.write (sub (sub out n) f) data) = true := by
  have hO := runs_owned hout hN hb h
  have he' : e = (a ++ w) ++ (i, .write (sub (sub out n) f) data) :: c := by rw [he]; simp
  rw [h.answers _ _ _ _ he']
  rw [he'] at hO
  have h1 := owned_left hO
  have h2 := hr.run hN h1
  have h3 : d.run (Schedule.ops (a ++ w)) (sub out n) = some .dir := by
    rw [ops_append, run_append]
    exact dir_stays (hN n hn) (owned_right h1) hd
  simp only [Disk.ok, ne_eq, parentOf_sub hf.2.1, h3, Bool.and_eq_true, decide_eq_true_eq]
  exact ⟨h2.files n hn f hf, trivial⟩

/-- **C112.** The only way a build fails because of builds running at the same time: it sees that the
directory of a protocol is missing, another build makes it, and then making it fails.  This is the last
thing it does, and it is reported. -/
theorem C112_race {bs : List Build} {names : List Bytes} {out : Bytes} {d : Disk} {envs : Nat → Fs}
    {e : Schedule} (hout : DirPath out) (hN : ∀ n ∈ names, EntryName n)
    (hb : ∀ b ∈ bs, Sound names out b) (hr : Ready names out d) (h : Runs bs out d envs e)
    {i : Nat} {r : Res PError (List Proto)} (hi : Ended bs out envs e i r) (hbad : ∀ rs, r ≠ .ok rs) :
    r = .err .io ∧ ∃ (b : Build) (p : Protocol) (j : Nat) (u v w x : Schedule),
      bs[i]? = some b ∧ p ∈ b.conf.protocols ∧ j ≠ i ∧
      e = u ++ (i, .exists (sub out (Name.utf8 p.name))) ::
        (v ++ (j, .createDir (sub out (Name.utf8 p.name))) ::
        (w ++ (i, .createDir (sub out (Name.utf8 p.name))) :: x)) ∧
      v.of i = [] ∧ w.of i = [] ∧ x.of i = [] ∧
      d.run u.ops (sub out (Name.utf8 p.name)) = none ∧
      (d.run (u.ops ++ v.ops)).ok (.createDir (sub out (Name.utf8 p.name))) = true := by
  obtain ⟨b, hbi, hg⟩ := hi
  have hs := hb b (List.mem_of_getElem? hbi)
  have hO := runs_owned hout hN hb h
  obtain ⟨before, p, after, ops, rs, done, hps, hP, ht, ⟨x, hx, hxr⟩, -⟩ := C57_stops _ _ _ _ _ _ _ hg hbad
  have hpm : p ∈ b.conf.protocols := by rw [hps]; simp
  obtain ⟨rp, hrp⟩ := hs.good p hpm
  have hpn := hs.named p hpm
  have hn := hN _ hpn
  rw [List.nil_append] at hx ht
  have hnok : ¬ AllOk (envs i) ops (plan b.gen out b.conf p
      (envs i ops (.exists (Path.join out (Name.utf8 p.name))))) := by
    intro hok
    rw [C57_one_ok _ _ _ _ _ _ _ rfl hok, hrp] at hx
    have hx' := congrArg Prod.snd hx
    rcases hxr with ⟨e', rfl, -⟩ | ⟨rfl, -⟩ <;> cases hx'
  obtain ⟨a, o, c, hpl, hokA, hne, hfail, hgen⟩ := C57_first_failure _ _ _ _ _ _ _ rfl hnok
  rw [hgen] at hx
  injection hx with hx1 hx2
  subst hx2
  obtain ⟨files, hfiles⟩ := generates hrp
  rw [plan_eq hout hs.flat hn hfiles, join_plain hout hn] at hpl
  have hpm2 := produces_mem (out := out) (c := b.conf) (p := p) hs.flat
  generalize produces b.gen out b.conf p = ws at hpl hpm2
  generalize hnm : Name.utf8 p.name = n at *
  have hrio : r = .err .io := by
    rcases hxr with ⟨e', he', hr'⟩ | ⟨he', -⟩
    · cases he'; exact hr'
    · cases he'
  refine ⟨hrio, ?_⟩
  -- the first operation is the check
  cases a with
  | nil =>
    simp only [List.nil_append, List.cons_append, List.cons.injEq] at hpl
    exact absurd hpl.1.symm (hne _)
  | cons o1 a =>
    simp only [List.cons_append, List.cons.injEq] at hpl
    obtain ⟨rfl, hpl⟩ := hpl
    have hloc : e.of i = ops ++ .exists (sub out n) :: (a ++ [o]) := by rw [← hx1]; simp
    obtain ⟨u, w0, rfl, hu, hw0⟩ := locate hloc
    have hans := h.answers _ _ _ _ rfl
    rw [hu] at hans
    have hroU := hr.run hN (owned_left hO)
    have hO2 := owned_right hO
    -- writing cannot fail
    have wr : ∀ (v1 w1 : Schedule) (a' : List FsOp), w0 = v1 ++ w1 → w1.of i = a' ++ [o] →
        o ∈ ws.map (fun w => FsOp.write w.1 w.2) → Schedule.of v1 i ++ a' = a →
        d.run (u ++ (i, .exists (sub out n)) :: v1).ops (sub out n) = some .dir → False := by
      intro v1 w1 a' hw hw1 ho ha hdir
      obtain ⟨w, hwm, rfl⟩ := List.mem_map.1 ho
      obtain ⟨f, hf, hw'⟩ := hpm2 w hwm
      obtain ⟨y, z, rfl, hy, -⟩ := locate hw1
      rw [hw'] at hfail hw
      have := write_answers hout hN hb hr h (a := u ++ (i, .exists (sub out n)) :: v1) (w := y) (c := z)
        (i := i) (data := w.2) hpn hf (by rw [hw]; simp) hdir
      have hy' : Schedule.of (u ++ (i, .exists (sub out n)) :: v1 ++ y) i =
          ops ++ .exists (sub out n) :: a := by
        rw [of_append, of_append, of_cons_self, hu, hy, ← ha]; simp
      rw [hy', hfail] at this
      cases this
    cases hthere : envs i ops (.exists (sub out n)) with
    | true =>
      rw [hthere, if_pos rfl, List.nil_append] at hpl
      rw [hthere] at hans
      exfalso
      refine wr [] w0 a rfl hw0 (by rw [hpl]; simp) rfl ?_
      rw [ops_append, run_append]
      rcases hroU.protos n hpn with h0 | h0
      · rw [Disk.ok, h0] at hans; cases hans
      · exact h0
    | false =>
      rw [hthere, if_neg (by simp), List.singleton_append] at hpl
      rw [hthere] at hans
      have hnone : d.run u.ops (sub out n) = none := by
        cases h0 : d.run u.ops (sub out n) with
        | none => rfl
        | some x => rw [Disk.ok, h0] at hans; cases hans
      cases a with
      | nil =>
        simp only [List.nil_append, List.cons.injEq] at hpl
        obtain ⟨rfl, rfl⟩ := hpl
        obtain ⟨y, x, rfl, hy, hx⟩ := locate (t := []) hw0
        have e1 : u ++ (i, .exists (sub out n)) :: (y ++ (i, .createDir (sub out n)) :: x) =
            (u ++ (i, .exists (sub out n)) :: y) ++ (i, .createDir (sub out n)) :: x := by simp
        have h1 := h.answers _ _ _ _ e1
        have hof : Schedule.of (u ++ (i, .exists (sub out n)) :: y) i = ops ++ [.exists (sub out n)] := by
          rw [of_append, of_cons_self, hu, hy]
        rw [hof, hfail] at h1
        rw [e1] at hO
        have hO3 := owned_left hO
        have hr1 := hr.run hN hO3
        have hsome : d.run (Schedule.ops (u ++ (i, .exists (sub out n)) :: y)) (sub out n) ≠ none := by
          intro h0
          simp [Disk.ok, h0, parentOf_sub hn.2.1, hr1.here] at h1
        have e2 : d.run (Schedule.ops (u ++ (i, .exists (sub out n)) :: y)) = (d.run u.ops).run y.ops := by
          rw [ops_append, run_append]; rfl
        rw [e2] at hsome
        obtain ⟨v, j, w, rfl, hok⟩ := dir_made hn (fun o ho => hO3 o (by
          rw [ops_append]
          exact List.mem_append_right _ (List.mem_cons_of_mem _ ho))) hnone hsome
        rw [of_append] at hy
        obtain ⟨hy1, hy2⟩ := List.append_eq_nil_iff.1 hy
        have hji : j ≠ i := by
          rintro rfl
          rw [of_cons_self] at hy2
          cases hy2
        rw [of_cons_ne hji] at hy2
        refine ⟨b, p, j, u, v, w, x, hbi, hpm, hji, ?_, hy1, hy2, hx, ?_, ?_⟩
        · rw [hnm]; simp
        · rw [hnm]; exact hnone
        · rw [hnm, run_append]; exact hok
      | cons o2 a =>
        simp only [List.cons_append, List.cons.injEq] at hpl
        obtain ⟨rfl, hpl⟩ := hpl
        exfalso
        obtain ⟨y, x, rfl, hy, hx⟩ := locate (t := []) hw0
        have e1 : u ++ (i, .exists (sub out n)) :: (y ++ (i, .createDir (sub out n)) :: x) =
            (u ++ (i, .exists (sub out n)) :: y) ++ (i, .createDir (sub out n)) :: x := by simp
        have h1 := h.answers _ _ _ _ e1
        have hof : Schedule.of (u ++ (i, .exists (sub out n)) :: y) i = ops ++ [.exists (sub out n)] := by
          rw [of_append, of_cons_self, hu, hy]
        rw [hof, hokA.1] at h1
        refine wr (y ++ [(i, .createDir (sub out n))]) x a (by simp) hx (by rw [hpl]; simp)
          (by rw [of_append, hy, of_cons_self]; rfl) ?_
        have e2 : u ++ (i, .exists (sub out n)) :: (y ++ [(i, .createDir (sub out n))]) =
            (u ++ (i, .exists (sub out n)) :: y) ++ [(i, .createDir (sub out n))] := by simp
        rw [e2, ops_append, run_append]
        show (d.run (Schedule.ops (u ++ (i, .exists (sub out n)) :: y))).after (.createDir (sub out n)) _ = _
        simp only [Disk.after, ← h1, if_true, Disk.put]

/-- What a build that ended well reports. -/
theorem plans_outcomes {g : Generator} {fs : Fs} {out : Bytes} {c : Protoc} {t ops : List FsOp}
    {ps : List Protocol} {rs : List Proto} (h : Plans g fs out c t ps ops rs) :
    List.Forall₂ (fun p r => outcome g out c p = .ok r) ps rs := by
  induction h with
  | nil => exact .nil
  | cons there ht hr hok rest ih => exact .cons hr ih

theorem ended_ok {bs : List Build} {out : Bytes} {envs : Nat → Fs} {e : Schedule} {i : Nat}
    {rs : List Proto} (h : Ended bs out envs e i (.ok rs)) :
    ∃ b, bs[i]? = some b ∧ Plans b.gen (envs i) out b.conf [] b.conf.protocols (e.of i) rs := by
  obtain ⟨b, hb, hg⟩ := h
  obtain ⟨ops, ho, hP⟩ := (C57_all ..).1 hg
  rw [List.nil_append] at ho
  rw [ho]
  exact ⟨b, hb, hP⟩

/-- **C112.** When no other build needs the directories a build needs, or they are there from the start,
the build succeeds whatever the others do meanwhile, and reports what it reports alone. -/
theorem C112_succeeds {bs : List Build} {names : List Bytes} {out : Bytes} {d : Disk} {envs : Nat → Fs}
    {e : Schedule} (hout : DirPath out) (hN : ∀ n ∈ names, EntryName n)
    (hb : ∀ b ∈ bs, Sound names out b) (hr : Ready names out d) (h : Runs bs out d envs e)
    {i : Nat} {b : Build} (hbi : bs[i]? = some b) {r : Res PError (List Proto)}
    (hi : Ended bs out envs e i r)
    (hsafe : ∀ dir ∈ b.dirs out, d dir = some .dir ∨
      ∀ j b', j ≠ i → bs[j]? = some b' → dir ∉ b'.dirs out) :
    ∃ rs, r = .ok rs ∧
      List.Forall₂ (fun p x => outcome b.gen out b.conf p = .ok x) b.conf.protocols rs := by
  by_cases hok : ∃ rs, r = .ok rs
  · obtain ⟨rs, rfl⟩ := hok
    obtain ⟨b', hb', hP⟩ := ended_ok hi
    rw [hbi] at hb'
    cases hb'
    exact ⟨rs, rfl, plans_outcomes hP⟩
  · exfalso
    obtain ⟨-, b', p, j, u, v, w, x, hb', hp, hj, he, -, -, -, hnone, -⟩ :=
      C112_race hout hN hb hr h hi fun rs hh => hok ⟨rs, hh⟩
    rw [hbi] at hb'
    cases hb'
    have hO := runs_owned hout hN hb h
    have hn := hN _ ((hb b (List.mem_of_getElem? hbi)).named p hp)
    rcases hsafe (sub out (Name.utf8 p.name)) (List.mem_map.2 ⟨p, hp, rfl⟩) with hd | hd
    · rw [he] at hO
      rw [dir_stays hn (owned_left hO) hd] at hnone
      cases hnone
    · have hm : (j, FsOp.createDir (sub out (Name.utf8 p.name))) ∈ e := by rw [he]; simp
      have hjl := h.known _ hm
      have hbj : bs[j]? = some bs[j] := List.getElem?_eq_getElem hjl
      have hsj := hb bs[j] (List.getElem_mem hjl)
      have hown := generate_owned (names := bs[j].conf.protocols.map fun p => Name.utf8 p.name)
        (fs := envs j) hout hsj.flat (fun n hn => by
          obtain ⟨q, hq, rfl⟩ := List.mem_map.1 hn
          exact hN _ (hsj.named q hq)) (fun q hq => List.mem_map.2 ⟨q, hq, rfl⟩) _
        ((h.program j _ hbj).subset (mem_of.2 hm))
      obtain ⟨m, hm, em⟩ := hown
      obtain ⟨q, hq, rfl⟩ := List.mem_map.1 hm
      exact hd j _ hj hbj (List.mem_map.2 ⟨q, hq, em.symm⟩)

/-- **C112.** Whatever the schedule, not every build fails: there is one that succeeds or has not ended. -/
theorem C112_some {bs : List Build} {names : List Bytes} {out : Bytes} {d : Disk} {envs : Nat → Fs}
    {e : Schedule} (hout : DirPath out) (hN : ∀ n ∈ names, EntryName n)
    (hb : ∀ b ∈ bs, Sound names out b) (hr : Ready names out d) (h : Runs bs out d envs e)
    (hne : bs ≠ []) : ∃ i, i < bs.length ∧ ∀ r, Ended bs out envs e i r → ∃ rs, r = .ok rs := by
  refine Classical.byContradiction fun hno => ?_
  have hall : ∀ i, i < bs.length → ∃ r, Ended bs out envs e i r ∧ ∀ rs, r ≠ .ok rs := by
    intro i hi
    refine Classical.byContradiction fun hi' => hno ⟨i, hi, fun r hr' => ?_⟩
    exact Classical.byContradiction fun hrs => hi' ⟨r, hr', fun rs hh => hrs ⟨rs, hh⟩⟩
  -- a build that made a directory looks for the one it fails to make later than that
  have key : ∀ (m i : Nat) (u v : Schedule) (dir : Bytes), e = u ++ (i, .createDir dir) :: v →
      (d.run u.ops).ok (.createDir dir) = true → v.length < m → False := by
    intro m
    induction m with
    | zero => intro _ _ _ _ _ _ hm; cases hm
    | succ m ih =>
      intro i u v dir he hok hm
      have hi : i < bs.length := h.known (i, .createDir dir) (by rw [he]; simp)
      obtain ⟨r, hi1, hi2⟩ := hall i hi
      obtain ⟨-, b, p, j, u', v', w', x', hbi, hp, hj, he', hv, hw, hx, -, hok'⟩ :=
        C112_race hout hN hb hr h hi1 hi2
      have hn := hN _ ((hb b (List.mem_of_getElem? hbi)).named p hp)
      generalize sub out (Name.utf8 p.name) = dir' at *
      have e1 : e = (u' ++ (i, .exists dir') :: v') ++ (j, .createDir dir') ::
          (w' ++ (i, .createDir dir') :: x') := by rw [he']; simp
      have hok2 : (d.run (Schedule.ops (u' ++ (i, .exists dir') :: v'))).ok (.createDir dir') = true := by
        rw [ops_append, run_append]
        rw [run_append] at hok'
        exact hok'
      refine ih j _ _ dir' e1 hok2 ?_
      rw [he] at he'
      rcases List.append_eq_append_iff.1 he' with ⟨as, rfl, has⟩ | ⟨as, rfl, has⟩
      · cases as with
        | nil => cases has
        | cons y as =>
          simp only [List.cons_append, List.cons.injEq] at has
          obtain ⟨-, rfl⟩ := has
          simp only [List.length_append, List.length_cons] at hm ⊢
          omega
      · cases as with
        | nil => cases has
        | cons y as =>
          simp only [List.cons_append, List.cons.injEq] at has
          obtain ⟨rfl, has⟩ := has
          exfalso
          have hof := congrArg (fun l => Schedule.of l i) has
          simp only [of_append, of_cons_self, of_cons_ne hj, hv, hw, hx] at hof
          have hof' : [FsOp.createDir dir'] = Schedule.of as i ++ .createDir dir :: Schedule.of v i := hof
          cases ha : Schedule.of as i with
          | cons y ys => rw [ha] at hof'; simp at hof'
          | nil =>
            rw [ha] at hof'
            simp only [List.nil_append, List.cons.injEq, FsOp.createDir.injEq] at hof'
            obtain ⟨rfl, hvn⟩ := hof'
            have has' : (v' ++ (j, .createDir dir') :: w') ++ (i, .createDir dir') :: x' =
                as ++ (i, .createDir dir') :: v := by rw [← has]; simp
            have hu := first_unique has' (by rw [of_append, of_cons_ne hj, hv, hw]; rfl) ha
            subst hu
            have hmk : d.run (Schedule.ops ((u' ++ (i, .exists dir') :: v') ++ [(j, .createDir dir')])) dir' ≠
                none := by
              rw [ops_append, run_append]
              show (d.run (Schedule.ops (u' ++ (i, .exists dir') :: v'))).after (.createDir dir') dir' ≠ none
              simp [Disk.after, hok2, Disk.put]
            have := run_ne_none _ (Schedule.ops w') hmk
            rw [← run_append, ← ops_append] at this
            have e2 : u' ++ (i, .exists dir') :: v' ++ [(j, .createDir dir')] ++ w' =
                u' ++ (i, .exists dir') :: (v' ++ (j, .createDir dir') :: w') := by simp
            rw [e2] at this
            simp only [Disk.ok, Bool.and_eq_true, Option.isNone_iff_eq_none] at hok
            exact this hok.1
  obtain ⟨r, hi1, hi2⟩ := hall 0 (by cases bs with | nil => exact absurd rfl hne | cons => simp)
  obtain ⟨-, b, p, j, u', v', w', x', -, -, -, he', -, -, -, -, hok'⟩ := C112_race hout hN hb hr h hi1 hi2
  generalize sub out (Name.utf8 p.name) = dir' at *
  refine key _ j (u' ++ (0, .exists dir') :: v') (w' ++ (0, .createDir dir') :: x') dir'
    (by rw [he']; simp) ?_ (Nat.lt_succ_self _)
  rw [ops_append, run_append]
  rw [run_append] at hok'
  exact hok'

theorem plan_mem {g : Generator} {out : Bytes} {c : Protoc} {p : Protocol} {there : Bool}
    (hout : DirPath out) (hg : Flat g) (hn : EntryName (Name.utf8 p.name)) {o : FsOp}
    (ho : o ∈ plan g out c p there) :
    (∃ q, o = .exists q) ∨ o = .createDir (sub out (Name.utf8 p.name)) ∨
      ∃ w ∈ produces g out c p, o = .write w.1 w.2 := by
  cases hgen : g.generate p with
  | err e => rw [plan, hgen] at ho; cases ho
  | panic => rw [plan, hgen] at ho; cases ho
  | ok files =>
    rw [plan_eq hout hg hn hgen] at ho
    rcases List.mem_append.1 ho with ho | ho
    · rcases List.mem_cons.1 ho with rfl | ho
      · exact .inl ⟨_, rfl⟩
      · split at ho
        · cases ho
        · exact .inr (.inl (List.mem_singleton.1 ho))
    · obtain ⟨w, hw, rfl⟩ := List.mem_map.1 ho
      exact .inr (.inr ⟨w, hw, rfl⟩)

/-- What is done for protocols done one after the other. -/
theorem plans_split {g : Generator} {fs : Fs} {out : Bytes} {c : Protoc} {t ops : List FsOp}
    {ps : List Protocol} {rs : List Proto} (h : Plans g fs out c t ps ops rs) {p : Protocol}
    (hp : p ∈ ps) : ∃ a b, t ++ ops =
        a ++ plan g out c p (fs a (.exists (Path.join out (Name.utf8 p.name)))) ++ b ∧
      AllOk fs a (plan g out c p (fs a (.exists (Path.join out (Name.utf8 p.name))))) := by
  induction h with
  | nil => cases hp
  | @cons t p' ps ops r rs there ht hr hok rest ih =>
    rcases List.mem_cons.1 hp with rfl | hp
    · subst ht
      exact ⟨t, ops, by simp, hok⟩
    · obtain ⟨a, b, h1, h2⟩ := ih hp
      exact ⟨a, b, by rw [← h1]; simp, h2⟩

theorem plans_ops {g : Generator} {fs : Fs} {out : Bytes} {c : Protoc} {t ops : List FsOp}
    {ps : List Protocol} {rs : List Proto} (h : Plans g fs out c t ps ops rs) {o : FsOp} (ho : o ∈ ops) :
    ∃ p ∈ ps, ∃ there, o ∈ plan g out c p there := by
  induction h with
  | nil => cases ho
  | cons there ht hr hok rest ih =>
    rcases List.mem_append.1 ho with ho | ho
    · exact ⟨_, by simp, _, ho⟩
    · obtain ⟨p, hp, h⟩ := ih ho
      exact ⟨p, List.mem_cons_of_mem _ hp, h⟩

theorem generate_ops {g : Generator} {fs : Fs} {out : Bytes} {c : Protoc} {o : FsOp}
    (ho : o ∈ (Protoc.generate g fs out c []).1) :
    ∃ p ∈ c.protocols, ∃ there, o ∈ plan g out c p there := by
  cases h : Protoc.generate g fs out c [] with
  | mk t r =>
    rw [h] at ho
    have bad : (∀ rs, r ≠ .ok rs) → ∃ p ∈ c.protocols, ∃ there, o ∈ plan g out c p there := fun hr => by
      obtain ⟨before, p, after, ops, rs, done, hps, hP, rfl, -, hd⟩ := C57_stops g fs out c [] t r h hr
      rcases List.mem_append.1 ho with ho | ho
      · obtain ⟨q, hq, h⟩ := plans_ops hP (by simpa using ho)
        exact ⟨q, by rw [hps]; simp [hq], h⟩
      · exact ⟨p, by rw [hps]; simp, _, hd.subset ho⟩
    cases r with
    | ok rs =>
      obtain ⟨ops, rfl, hP⟩ := (C57_all g fs out c [] t rs).1 h
      exact plans_ops hP (by simpa using ho)
    | err e => exact bad (by simp)
    | panic => exact bad (by simp)

/-- What builds do to the disk. -/
theorem runs_mem {bs : List Build} {names : List Bytes} {out : Bytes} {d : Disk} {envs : Nat → Fs}
    {e : Schedule} (hout : DirPath out) (hN : ∀ n ∈ names, EntryName n)
    (hb : ∀ b ∈ bs, Sound names out b) (h : Runs bs out d envs e) {o : FsOp} (ho : o ∈ e.ops) :
    (∃ q, o = .exists q) ∨ (∃ b ∈ bs, ∃ dir ∈ b.dirs out, o = .createDir dir) ∨
      ∃ b ∈ bs, ∃ w ∈ b.files out, o = .write w.1 w.2 := by
  obtain ⟨⟨i, o'⟩, hm, rfl⟩ := List.mem_map.1 ho
  have hi := h.known _ hm
  have hbi : bs[i]? = some bs[i] := List.getElem?_eq_getElem hi
  have hs := hb bs[i] (List.getElem_mem hi)
  obtain ⟨p, hp, there, hpl⟩ := generate_ops ((h.program i _ hbi).subset (mem_of.2 hm))
  rcases plan_mem hout hs.flat (hN _ (hs.named p hp)) hpl with h1 | h1 | ⟨w, hw, h1⟩
  · exact .inl h1
  · exact .inr (.inl ⟨_, List.getElem_mem hi, _, List.mem_map.2 ⟨p, hp, rfl⟩, h1⟩)
  · exact .inr (.inr ⟨_, List.getElem_mem hi, w, List.mem_flatMap.2 ⟨p, hp, hw⟩, h1⟩)

/-- **C112.** At every moment, every path is as it was before the builds, or a directory one of them
needs, or a file with the contents one of them produces. -/
theorem C112_contents {bs : List Build} {names : List Bytes} {out : Bytes} {d : Disk} {envs : Nat → Fs}
    {e : Schedule} (hout : DirPath out) (hN : ∀ n ∈ names, EntryName n)
    (hb : ∀ b ∈ bs, Sound names out b) (h : Runs bs out d envs e) (q : Bytes) :
    d.run e.ops q = d q ∨ (∃ b ∈ bs, q ∈ b.dirs out ∧ d.run e.ops q = some .dir) ∨
      ∃ b ∈ bs, ∃ data, (q, data) ∈ b.files out ∧ d.run e.ops q = some (.file data) := by
  refine run_keeps (fun x => x = d q ∨ (∃ b ∈ bs, q ∈ b.dirs out ∧ x = some .dir) ∨
    ∃ b ∈ bs, ∃ data, (q, data) ∈ b.files out ∧ x = some (.file data)) d e.ops (fun hm => ?_)
    (fun data hm => ?_) (.inl rfl)
  · rcases runs_mem hout hN hb h hm with ⟨_, h1⟩ | ⟨b, hbm, dir, hd, h1⟩ | ⟨b, hbm, w, hw, h1⟩
    · cases h1
    · cases h1; exact .inr (.inl ⟨b, hbm, hd, rfl⟩)
    · cases h1
  · rcases runs_mem hout hN hb h hm with ⟨_, h1⟩ | ⟨b, hbm, dir, hd, h1⟩ | ⟨b, hbm, w, hw, h1⟩
    · cases h1
    · cases h1
    · cases h1; exact .inr (.inr ⟨b, hbm, _, hw, rfl⟩)

/-- Every operation of a plan done without failure is somewhere in what all builds did, and the disk
agreed to it. -/
theorem plan_located {bs : List Build} {out : Bytes} {d : Disk} {envs : Nat → Fs} {e : Schedule}
    (h : Runs bs out d envs e) {i : Nat} {t a c r : List FsOp} {o : FsOp} (hof : e.of i = t ++ (a ++ o :: c) ++ r)
    (hok : AllOk (envs i) t (a ++ o :: c)) (hne : ∀ q, o ≠ .exists q) :
    ∃ x y : Schedule, e = x ++ (i, o) :: y ∧ (d.run x.ops).ok o = true := by
  obtain ⟨x, y, rfl, hx, -⟩ := locate (t := t ++ a) (o := o) (r := c ++ r) (by rw [hof]; simp)
  refine ⟨x, y, rfl, ?_⟩
  rw [← h.answers _ _ _ _ rfl, hx]
  have := ((AllOk_append ..).1 hok).2
  cases o with
  | «exists» q => exact absurd rfl (hne q)
  | createDir => exact this.1
  | write => exact this.1

/-- **C112.** The directories and the files of a build that succeeded are there when all is done, and a
file holds what a build produces for it; its own contents when the builds agree about it. -/
theorem C112_files {bs : List Build} {names : List Bytes} {out : Bytes} {d : Disk} {envs : Nat → Fs}
    {e : Schedule} (hout : DirPath out) (hN : ∀ n ∈ names, EntryName n)
    (hb : ∀ b ∈ bs, Sound names out b) (hr : Ready names out d) (h : Runs bs out d envs e)
    {i : Nat} {b : Build} (hbi : bs[i]? = some b) {rs : List Proto}
    (hi : Ended bs out envs e i (.ok rs)) :
    (∀ dir ∈ b.dirs out, d.run e.ops dir = some .dir) ∧
    ∀ w ∈ b.files out,
      (∃ b' ∈ bs, ∃ data, (w.1, data) ∈ b'.files out ∧ d.run e.ops w.1 = some (.file data)) ∧
      ((∀ b' ∈ bs, ∀ data, (w.1, data) ∈ b'.files out → data = w.2) →
        d.run e.ops w.1 = some (.file w.2)) := by
  obtain ⟨b', hb', hP⟩ := ended_ok hi
  rw [hbi] at hb'
  cases hb'
  have hs := hb b (List.mem_of_getElem? hbi)
  have hO := runs_owned hout hN hb h
  constructor
  · intro dir hdir
    obtain ⟨p, hp, rfl⟩ := List.mem_map.1 hdir
    have hpn := hs.named p hp
    have hn := hN _ hpn
    obtain ⟨r, hr1⟩ := hs.good p hp
    obtain ⟨files, hfiles⟩ := generates hr1
    obtain ⟨a, c, h1, h2⟩ := plans_split hP hp
    rw [List.nil_append] at h1
    cases ht : envs i a (.exists (Path.join out (Name.utf8 p.name))) with
    | true =>
      rw [ht, plan_eq hout hs.flat hn hfiles] at h1
      rw [join_plain hout hn] at ht
      obtain ⟨x, y, rfl, hx, -⟩ := locate (t := a) (o := .exists (sub out (Name.utf8 p.name))) (by
        rw [h1, List.append_assoc, List.cons_append, List.cons_append])
      have ha := h.answers _ _ _ _ rfl
      rw [hx, ht] at ha
      have h0 : d.run x.ops (sub out (Name.utf8 p.name)) = some .dir := by
        rcases (hr.run hN (owned_left hO)).protos _ hpn with h0 | h0
        · rw [Disk.ok, h0] at ha; cases ha
        · exact h0
      rw [ops_append, run_append]
      exact dir_stays hn (owned_right hO) h0
    | false =>
      rw [ht, plan_eq hout hs.flat hn hfiles] at h1 h2
      obtain ⟨x, y, rfl, hok⟩ := plan_located h (a := [.exists (sub out (Name.utf8 p.name))])
        (o := .createDir (sub out (Name.utf8 p.name))) h1 h2 (by simp)
      rw [ops_append, run_append]
      show ((d.run x.ops).after (.createDir _)).run y.ops _ = _
      refine dir_stays hn (fun o ho => owned_right hO o (List.mem_cons_of_mem _ ho)) ?_
      simp only [Disk.after, hok, if_true, Disk.put]
  · intro w hw
    obtain ⟨p, hp, hw⟩ := List.mem_flatMap.1 hw
    have hpn := hs.named p hp
    have hn := hN _ hpn
    obtain ⟨r, hr1⟩ := hs.good p hp
    obtain ⟨files, hfiles⟩ := generates hr1
    obtain ⟨f, hf, hwf⟩ := produces_mem hs.flat w hw
    obtain ⟨a, c, h1, h2⟩ := plans_split hP hp
    rw [List.nil_append] at h1
    rw [plan_eq hout hs.flat hn hfiles] at h1 h2
    obtain ⟨ws1, ws2, hws⟩ := List.append_of_mem hw
    rw [hws, List.map_append, List.map_cons] at h1 h2
    rw [← List.append_assoc] at h2
    obtain ⟨x, y, he, hok⟩ := plan_located h (r := c) (by rw [h1]; simp) h2 (by simp)
    have key : ∀ P : Option Entry → Prop, P (some (.file w.2)) →
        (∀ data, (∃ b' ∈ bs, (w.1, data) ∈ b'.files out) → P (some (.file data))) →
        P (d.run e.ops w.1) := by
      intro P h0 hk
      rw [he, ops_append, run_append]
      show P (((d.run x.ops).after (.write w.1 w.2)).run y.ops w.1)
      have hmem : ∀ o ∈ y.ops, o ∈ e.ops := fun o ho => by
        rw [he, ops_append]
        exact List.mem_append_right _ (List.mem_cons_of_mem _ ho)
      refine run_keeps P _ _ (fun hm => ?_) (fun data hm => ?_) ?_
      · obtain ⟨m, hm, e'⟩ := hO _ (hmem _ hm)
        rw [hwf] at e'
        exact absurd e' (sub_sub_ne_sub hf.2.1 (hN m hm).2.1)
      · rcases runs_mem hout hN hb h (hmem _ hm) with ⟨_, h1⟩ | ⟨b, hbm, dir, hd, h1⟩ | ⟨b', hbm, w', hw', h1⟩
        · cases h1
        · cases h1
        · obtain ⟨w'1, w'2⟩ := w'
          simp only [FsOp.write.injEq] at h1
          obtain ⟨rfl, rfl⟩ := h1
          exact hk _ ⟨b', hbm, hw'⟩
      · simp only [Disk.after, hok, if_true, Disk.put]
        exact h0
    refine ⟨key (fun x => ∃ b' ∈ bs, ∃ data, (w.1, data) ∈ b'.files out ∧ x = some (.file data)) ?_ ?_,
      fun hag => key (· = some (.file w.2)) rfl ?_⟩
    · exact ⟨b, List.mem_of_getElem? hbi, _, List.mem_flatMap.2 ⟨p, hp, hw⟩, rfl⟩
    · rintro data ⟨b', hbm, hd⟩
      exact ⟨b', hbm, data, hd, rfl⟩
    · rintro data ⟨b', hbm, hd⟩
      rw [hag b' hbm data hd]

/-- **C112.** The same build run any number of times at the same time: once all have ended, the disk is
as one of them alone leaves it, and each of them reported what it reports alone, or an I/O error. -/
theorem C112_same {b : Build} {bs : List Build} {names : List Bytes} {out : Bytes} {d : Disk}
    {envs : Nat → Fs} {e : Schedule} (hout : DirPath out) (hN : ∀ n ∈ names, EntryName n)
    (hb : Sound names out b) (hr : Ready names out d) (hne : bs ≠ []) (hsame : ∀ b' ∈ bs, b' = b)
    (hkeys : ((b.files out).map Prod.fst).Nodup) (h : Runs bs out d envs e)
    (hend : ∀ i, i < bs.length → ∃ r, Ended bs out envs e i r) :
    ∃ ops rs, Protoc.generate b.gen d.fs out b.conf [] = (ops, .ok rs) ∧ d.run e.ops = d.run ops ∧
      ∀ i r, Ended bs out envs e i r → r = .ok rs ∨ r = .err .io := by
  have hall : ∀ b' ∈ bs, Sound names out b' := fun b' hb' => hsame b' hb' ▸ hb
  obtain ⟨ops, rs, hg, hF, hset⟩ := C99_build hout hb.flat hN hb.named hb.good hr
  refine ⟨ops, rs, hg, ?_, fun i r hi => ?_⟩
  · obtain ⟨i, hi, hok⟩ := C112_some hout hN hall hr h hne
    obtain ⟨r, hr1⟩ := hend i hi
    obtain ⟨rs', rfl⟩ := hok r hr1
    have hbi : bs[i]? = some b := by
      rw [List.getElem?_eq_getElem hi, hsame _ (List.getElem_mem hi)]
    obtain ⟨hdirs, hfiles⟩ := C112_files hout hN hall hr h hbi hr1
    have inj : ∀ q x y, (q, x) ∈ b.files out → (q, y) ∈ b.files out → x = y := fun q x y hx hy => by
      have h1 := lookup_nodup hkeys hx
      rw [lookup_nodup hkeys hy] at h1
      exact (Option.some.inj h1).symm
    rw [hset]
    funext q
    change _ = settled d (b.dirs out) _ q
    unfold settled
    by_cases hq : q ∈ b.dirs out
    · rw [if_pos hq]; exact hdirs q hq
    · rw [if_neg hq]
      cases hl : List.lookup q (b.conf.protocols.flatMap (produces b.gen out b.conf)).reverse with
      | some data =>
        have hm : (q, data) ∈ b.files out := List.mem_reverse.1 (mem_of_lookup hl)
        exact (hfiles _ hm).2 fun b' hb' data' hd' => by
          rw [hsame b' hb'] at hd'
          exact inj _ _ _ hd' hm
      | none =>
        rcases C112_contents hout hN hall h q with h1 | ⟨b', hb', h1, -⟩ | ⟨b', hb', data, h1, -⟩
        · exact h1
        · rw [hsame b' hb'] at h1; exact absurd h1 hq
        · rw [hsame b' hb'] at h1
          rw [List.lookup_eq_none_iff] at hl
          have := hl (q, data) (List.mem_reverse.2 h1)
          simp at this
  · by_cases hok : ∃ rs, r = .ok rs
    · obtain ⟨rs', rfl⟩ := hok
      obtain ⟨b', hb', hP⟩ := ended_ok hi
      obtain rfl := hsame b' (List.mem_of_getElem? hb')
      left
      congr 1
      have e : ∀ {ps : List Protocol} {rs rs0 : List Proto},
          List.Forall₂ (fun p r => outcome b'.gen out b'.conf p = .ok r) ps rs →
          List.Forall₂ (fun p r => outcome b'.gen out b'.conf p = .ok r) ps rs0 → rs0 = rs := by
        intro ps rs rs0 h h'
        induction h generalizing rs0 with
        | nil => cases h'; rfl
        | cons h _ ih =>
          cases h' with
          | cons h2 h3 =>
            rw [h] at h2
            rw [ih h3, Res.ok.inj h2]
      exact e hF (plans_outcomes hP)
    · exact .inr (C112_race hout hN hall hr h hi fun rs hh => hok ⟨rs, hh⟩).1

/-- **C112.** The race exists: for every build that has to make the directory of its first protocol there
is a schedule of two of them where one succeeds and the other fails. -/
theorem C112_real {b : Build} {names : List Bytes} {out : Bytes} {d : Disk} {p : Protocol}
    {ps : List Protocol} (hout : DirPath out) (hN : ∀ n ∈ names, EntryName n)
    (hb : Sound names out b) (hr : Ready names out d) (hp : b.conf.protocols = p :: ps)
    (hnone : d (sub out (Name.utf8 p.name)) = none) :
    ∃ envs e rs, Runs [b, b] out d envs e ∧ Ended [b, b] out envs e 0 (.ok rs) ∧
      Ended [b, b] out envs e 1 (.err .io) := by
  obtain ⟨ops, rs, hg, hF, hset⟩ := C99_build hout hb.flat hN hb.named hb.good hr
  have hpm : p ∈ b.conf.protocols := by rw [hp]; simp
  have hn := hN _ (hb.named p hpm)
  obtain ⟨r, hr1⟩ := hb.good p hpm
  obtain ⟨files, hfiles⟩ := generates hr1
  obtain ⟨L, hL⟩ : ∃ L, ops = .exists (sub out (Name.utf8 p.name)) :: L := by
    obtain ⟨ops', ho, hP⟩ := (C57_all ..).1 hg
    rw [List.nil_append] at ho
    subst ho
    rw [hp] at hP
    cases hP with
    | cons there ht hr hok rest =>
      rw [plan_eq hout hb.flat hn hfiles]
      exact ⟨_, rfl⟩
  have hdir : d.run ops (sub out (Name.utf8 p.name)) = some .dir := by
    rw [hset, settled, if_pos (List.mem_map.2 ⟨p, hpm, rfl⟩)]
  subst hL
  generalize hd : sub out (Name.utf8 p.name) = dir at *
  let envs : Nat → Fs := fun i t o => match i with
    | 0 => d.fs t o
    | _ => match t with
      | [] => d.ok o
      | _ => (d.run (.exists dir :: L)).ok o
  let e : Schedule := (0, .exists dir) :: (1, .exists dir) :: (L.map (fun o => (0, o)) ++ [(1, .createDir dir)])
  have of0 : ∀ L : List FsOp, Schedule.of (L.map fun o => (0, o)) 0 = L := by
    intro L
    induction L with
    | nil => rfl
    | cons o L ih => rw [List.map_cons, of_cons_self, ih]
  have of1 : ∀ L : List FsOp, Schedule.of (L.map fun o => (0, o)) 1 = [] := by
    intro L
    induction L with
    | nil => rfl
    | cons o L ih => rw [List.map_cons, of_cons_ne (by decide), ih]
  have ops0 : ∀ L : List FsOp, Schedule.ops (L.map fun o => (0, o)) = L := by
    intro L
    induction L with
    | nil => rfl
    | cons o L ih => exact congrArg (o :: ·) ih
  have he0 : e.of 0 = .exists dir :: L := by
    show Schedule.of (_ :: _ :: _) 0 = _
    rw [of_cons_self, of_cons_ne (by decide), of_append, of0, of_cons_ne (by decide)]
    simp [Schedule.of]
  have he1 : e.of 1 = [.exists dir, .createDir dir] := by
    show Schedule.of (_ :: _ :: _) 1 = _
    rw [of_cons_ne (by decide), of_cons_self, of_append, of1, of_cons_self]
    rfl
  have hg0 : Protoc.generate b.gen (envs 0) out b.conf [] = (e.of 0, .ok rs) := by rw [he0]; exact hg
  have hg1 : Protoc.generate b.gen (envs 1) out b.conf [] = (e.of 1, .err .io) := by
    have hnot : envs 1 [] (.exists dir) = false := by
      show d.ok (.exists dir) = false
      rw [Disk.ok, hnone]; rfl
    have hfail : envs 1 [.exists dir] (.createDir dir) = false := by
      show (d.run (.exists dir :: L)).ok (.createDir dir) = false
      rw [Disk.ok, hdir]; rfl
    have h1 := generateOne_eq b.gen (envs 1) out b.conf p [] files hfiles
    rw [join_plain hout hn, hd] at h1
    rw [hnot, if_neg (by simp), FsM.bind, FsM.op, List.nil_append, hfail, if_neg (by simp)] at h1
    rw [Protoc.generate, hp, generateAll_cons, FsM.bind, h1, he1]
    rfl
  refine ⟨envs, e, rs, ⟨?_, ?_, ?_⟩, ⟨b, rfl, hg0⟩, ⟨b, rfl, hg1⟩⟩
  · intro x hx
    simp only [e, List.mem_cons, List.mem_append, List.mem_map, List.not_mem_nil, or_false] at hx
    rcases hx with rfl | rfl | ⟨o, -, rfl⟩ | rfl <;> simp
  · intro i b' hb'
    match i with
    | 0 => cases hb'; rw [hg0]; exact List.prefix_refl _
    | 1 => cases hb'; rw [hg1]; exact List.prefix_refl _
    | i + 2 => simp at hb'
  · intro before after i o hsplit
    match before with
    | [] =>
      simp only [e, List.nil_append, List.cons.injEq, Prod.mk.injEq] at hsplit
      obtain ⟨⟨rfl, rfl⟩, -⟩ := hsplit
      rfl
    | [x] =>
      simp only [e, List.cons_append, List.nil_append, List.cons.injEq, Prod.mk.injEq] at hsplit
      obtain ⟨rfl, ⟨rfl, rfl⟩, -⟩ := hsplit
      rfl
    | x :: y :: before =>
      simp only [e, List.cons_append, List.cons.injEq] at hsplit
      obtain ⟨rfl, rfl, hsplit⟩ := hsplit
      rcases List.append_eq_append_iff.1 hsplit with ⟨as, rfl, has⟩ | ⟨as, hm, has⟩
      · cases as with
        | cons z as => simp at has
        | nil =>
          simp only [List.nil_append, List.cons.injEq, Prod.mk.injEq] at has
          obtain ⟨⟨rfl, rfl⟩, rfl⟩ := has
          rw [List.append_nil, of_cons_ne (by decide), of_cons_self]
          show (d.run (.exists dir :: L)).ok _ = (d.run (.exists dir :: .exists dir :: Schedule.ops _)).ok _
          rw [ops0]
          rfl
      · cases as with
        | nil =>
          simp only [List.append_nil, List.nil_append, List.cons.injEq, Prod.mk.injEq] at hm has
          obtain ⟨⟨rfl, rfl⟩, rfl⟩ := has
          rw [← hm, of_cons_ne (by decide), of_cons_self]
          show (d.run (.exists dir :: L)).ok _ = (d.run (.exists dir :: .exists dir :: Schedule.ops _)).ok _
          rw [ops0]
          rfl
        | cons z as =>
          simp only [List.cons_append, List.cons.injEq] at has
          obtain ⟨rfl, -⟩ := has
          obtain ⟨L1, L2, -, rfl, hm2⟩ := List.map_eq_append_iff.1 hm
          obtain ⟨o', -, -, ho', -⟩ := List.map_eq_cons_iff.1 hm2
          cases ho'
          rw [of_cons_self, of_cons_ne (by decide), of0]
          show (d.run (.exists dir :: L1)).ok _ = (d.run (.exists dir :: .exists dir :: Schedule.ops _)).ok _
          rw [ops0]
          rfl

/-- **C112.** Rust: any number of builds of the same protocols, of different names, at the same time.
When all have ended at least one has succeeded, every enabled file that is not trivial holds what is
generated for it, and the umbrella includes exactly these. -/
theorem C112_rust {lib : Lib} {p : Profile} {emb : Nat → Bool} {names : List Bytes} {out : Bytes}
    {c : Protoc} {d : Disk} {n : Nat} {envs : Nat → Fs} {e : Schedule} (hout : DirPath out)
    (hN : ∀ m ∈ names, EntryName m) (hp : ∀ q ∈ c.protocols, Name.utf8 q.name ∈ names)
    (hd : (c.protocols.map fun q => Name.utf8 q.name).Nodup)
    (hg : ∀ q ∈ c.protocols, ∃ files, (Rust.generator lib p emb).generate q = .ok files)
    (hr : Ready names out d) (hn : 0 < n)
    (h : Runs (List.replicate n ⟨Rust.generator lib p emb, c⟩) out d envs e)
    (hend : ∀ i, i < n → ∃ r, Ended (List.replicate n ⟨Rust.generator lib p emb, c⟩) out envs e i r) :
    (∃ i rs, i < n ∧ Ended (List.replicate n ⟨Rust.generator lib p emb, c⟩) out envs e i (.ok rs)) ∧
    ∀ q ∈ c.protocols, ∀ files, (Rust.generator lib p emb).generate q = .ok files →
      (∀ f ∈ files, c.enabled f.ty = true → 1 < f.data.length →
        d.run e.ops (sub (sub out (Name.utf8 q.name)) f.name) = some (.file f.data)) ∧
      d.run e.ops (sub (sub out (Name.utf8 q.name)) (utf8 "umbrella.rs")) =
        some (.file (Text.umbrellaText lib (Name.utf8 q.name)
          ((files.filter fun f => c.enabled f.ty && decide (1 < f.data.length)).map
            fun f => sub (sub out (Name.utf8 q.name)) f.name))) := by
  have hs : Sound names out ⟨Rust.generator lib p emb, c⟩ := by
    refine ⟨rust_flat lib p emb, hp, fun q hq => ?_⟩
    obtain ⟨files, hf⟩ := hg q hq
    unfold outcome
    dsimp only
    rw [hf]
    dsimp only
    rw [C52_umbrella]
    exact ⟨_, rfl⟩
  have hall : ∀ b ∈ List.replicate n (⟨Rust.generator lib p emb, c⟩ : Build),
      b = ⟨Rust.generator lib p emb, c⟩ := fun b hb => List.eq_of_mem_replicate hb
  have hne : List.replicate n (⟨Rust.generator lib p emb, c⟩ : Build) ≠ [] := by
    rw [ne_eq, List.replicate_eq_nil_iff]; omega
  constructor
  · obtain ⟨i, hi, hok⟩ := C112_some hout hN (fun b hb => hall b hb ▸ hs) hr h hne
    rw [List.length_replicate] at hi
    obtain ⟨r, hr1⟩ := hend i hi
    obtain ⟨rs, rfl⟩ := hok r hr1
    exact ⟨i, rs, hi, hr1⟩
  · obtain ⟨ops, rs, h1, h2, -⟩ := C112_same hout hN hs hr hne hall
      (rust_keys out c hd (fun q hq => hN _ (hp q hq)) hg) h (by rw [List.length_replicate]; exact hend)
    obtain ⟨ops', rs', k1, k2⟩ := C99_rust hout hN hp hd hg hr (.start (names := names) (out := out))
    dsimp only at h1
    rw [h1] at k1
    cases k1
    rw [h2]
    exact k2

/-- What the disk answers to a build that has done some operations. -/
def Drv.answer : Disk → Schedule → Nat → Nat → FsOp → Bool
  | d, [], _, _, o => d.ok o
  | d, (j, o') :: e, i, k, o =>
    if j = i then
      match k with
      | 0 => d.ok o
      | k + 1 => Drv.answer (d.after o') e i k o
    else Drv.answer (d.after o') e i k o

theorem answer_eq (d : Disk) (a b : Schedule) (i : Nat) (o : FsOp) :
    answer d (a ++ (i, o) :: b) i (a.of i).length o = (d.run a.ops).ok o := by
  induction a generalizing d with
  | nil => simp [answer, Schedule.of, Schedule.ops, Disk.run]
  | cons x a ih =>
    obtain ⟨j, o'⟩ := x
    rw [List.cons_append]
    by_cases hj : j = i
    · subst hj
      simp only [of_cons_self, List.length_cons, answer, if_true]
      exact ih _
    · rw [of_cons_ne hj]
      unfold answer
      rw [if_neg hj]
      exact ih _

/-- Schedules are executions when every build does what it does given the answers. -/
theorem runs_of {bs : List Build} {out : Bytes} {d : Disk} {e : Schedule}
    (hk : ∀ x ∈ e, x.1 < bs.length)
    (hp : ∀ i b, bs[i]? = some b →
      e.of i <+: (Protoc.generate b.gen (fun t o => answer d e i t.length o) out b.conf []).1) :
    Runs bs out d (fun i t o => answer d e i t.length o) e :=
  ⟨hk, hp, fun a b i o he => by subst he; exact answer_eq d a b i o⟩

namespace Drv.Ex

/-- Building `A` and `b`. -/
def both : Build := ⟨flat, Protoc.new [proto ['A'], proto ['b']]⟩

theorem both_sound : Sound names (utf8 "o") both := ⟨flat_flat, by decide +kernel, fun p _ => ⟨_, rfl⟩⟩

/-- Two builds of the same, one losing the race. -/
example : ∃ envs e rs, Runs [both, both] (utf8 "o") empty envs e ∧
    Ended [both, both] (utf8 "o") envs e 0 (.ok rs) ∧ Ended [both, both] (utf8 "o") envs e 1 (.err .io) ∧
    empty.run e.ops (utf8 "o/b/e.rs") = some (.file (utf8 "benum")) := by
  obtain ⟨envs, e, rs, h, h0, h1⟩ := C112_real dirPath names_entry both_sound empty_ready
    (p := proto ['A']) (ps := [proto ['b']]) rfl (if_neg (sub_ne _ _))
  refine ⟨envs, e, rs, h, h0, h1, ?_⟩
  have := (C112_files dirPath names_entry (by simp [both_sound]) empty_ready h rfl h0).2
    (utf8 "o/b/e.rs", utf8 "benum") (by decide +kernel)
  refine this.2 fun b' hb' data hd => ?_
  have hf : ∀ w ∈ both.files (utf8 "o"), w.1 = utf8 "o/b/e.rs" → w.2 = utf8 "benum" := by decide +kernel
  simp only [List.mem_cons, List.not_mem_nil, or_false, or_self] at hb'
  subst hb'
  exact hf _ hd rfl

/-- Building `A` only. -/
def onlyA : Build := ⟨flat, Protoc.new [proto ['A']]⟩

/-- Building `b` only. -/
def onlyB : Build := ⟨flat, Protoc.new [proto ['b']]⟩

/-- What they do, in turns. -/
def turns : Schedule :=
  [(0, .exists (utf8 "o/A")), (1, .exists (utf8 "o/b")), (1, .createDir (utf8 "o/b")),
   (0, .createDir (utf8 "o/A")), (0, .write (utf8 "o/A/s.rs") (utf8 "struct")),
   (1, .write (utf8 "o/b/s.rs") (utf8 "struct")), (0, .write (utf8 "o/A/e.rs") (utf8 "Aenum")),
   (0, .write (utf8 "o/A/umbrella.rs") (utf8 "A umbrella")),
   (1, .write (utf8 "o/b/e.rs") (utf8 "benum")),
   (1, .write (utf8 "o/b/umbrella.rs") (utf8 "b umbrella"))]

theorem turns_run : Runs [onlyA, onlyB] (utf8 "o") empty
    (fun i t o => answer empty turns i t.length o) turns := by
  refine runs_of (by decide +kernel) fun i b hb => ?_
  match i with
  | 0 => cases hb; decide +kernel
  | 1 => cases hb; decide +kernel
  | i + 2 => simp at hb

/-- Builds of different protocols never disturb each other. -/
example (i : Nat) (r : Res PError (List Proto)) (h : Ended [onlyA, onlyB] (utf8 "o")
    (fun i t o => answer empty turns i t.length o) turns i r) : ∃ rs, r = .ok rs := by
  have hs : ∀ b ∈ [onlyA, onlyB], Sound names (utf8 "o") b := by
    intro b hb
    simp only [List.mem_cons, List.not_mem_nil, or_false] at hb
    rcases hb with rfl | rfl <;> exact ⟨flat_flat, by decide +kernel, fun p _ => ⟨_, rfl⟩⟩
  obtain ⟨b, hb, -⟩ := id h
  obtain ⟨rs, hrs, -⟩ := C112_succeeds dirPath names_entry hs empty_ready turns_run hb h (by
    intro dir hdir
    refine .inr fun j b' hj hb' => ?_
    match i, j with
    | 0, 0 => exact absurd rfl hj
    | 1, 1 => exact absurd rfl hj
    | 0, 1 => cases hb; cases hb'; revert dir; decide +kernel
    | 1, 0 => cases hb; cases hb'; revert dir; decide +kernel
    | _, j + 2 => simp at hb'
    | i + 2, _ => simp at hb)
  exact ⟨rs, hrs⟩

end Drv.Ex

end Proto
