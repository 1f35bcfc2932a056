import Mathlib.Data.List.Nodup
import Verif.Props.Driver
import Verif.Props.Rust
import Verif.Spec.Disk

/-!
# C99: builds after interrupted builds
-/

namespace Proto

open Tpl Drv

theorem parentOf_sub {a b : Bytes} (hb : (0x2f : UInt8) ∉ b) : parentOf (sub a b) = a := by
  unfold parentOf sub
  have h : ∀ (l r : Bytes), (0x2f : UInt8) ∉ l →
      (l ++ 0x2f :: r).dropWhile (· ≠ 0x2f) = 0x2f :: r := by
    intro l r hl
    induction l with
    | nil => simp
    | cons x l ih =>
      have hx : x ≠ 0x2f := fun e => hl (by simp [e])
      have := ih (fun h => hl (List.mem_cons_of_mem _ h))
      simp only [List.cons_append, List.dropWhile_cons, decide_eq_true hx, if_true]
      exact this
  rw [List.reverse_append, List.reverse_cons, List.append_assoc, List.singleton_append,
    h _ _ (by simpa using hb)]
  simp

theorem join_plain {a b : Bytes} (ha : DirPath a) (hb : EntryName b) : Path.join a b = sub a b := by
  unfold Path.join sub
  have h1 : b.head? ≠ some 0x2f := fun h => hb.2.1 (List.mem_of_head? h)
  rw [if_neg h1, if_neg (by rintro (h | h); exacts [ha.1 h, ha.2 h])]
  simp

theorem Drv.DirPath.sub {a b : Bytes} (hb : EntryName b) : DirPath (sub a b) := by
  refine ⟨by simp [Drv.sub], fun h => hb.2.1 ?_⟩
  unfold Drv.sub at h
  cases b with
  | nil => exact absurd rfl hb.1
  | cons x b =>
    rw [List.getLast?_append, List.getLast?_cons_cons] at h
    cases hx : (x :: b).getLast? with
    | none => simp at hx
    | some y =>
      rw [hx] at h
      simp at h
      rw [h] at hx
      exact List.mem_of_getLast? hx

theorem sub_inj {a b a' b' : Bytes} (hb : (0x2f : UInt8) ∉ b) (hb' : (0x2f : UInt8) ∉ b') (h : sub a b = sub a' b') :
    a = a' ∧ b = b' := by
  have h1 : a = a' := (parentOf_sub hb).symm.trans ((congrArg parentOf h).trans (parentOf_sub hb'))
  subst h1
  exact ⟨rfl, by simpa [sub] using h⟩

theorem sub_ne (a b : Bytes) : sub a b ≠ a := by
  intro h
  have := congrArg List.length h
  simp [sub] at this

theorem sub_sub_ne {a b : Bytes} (c : Bytes) : sub (sub a b) c ≠ a := by
  intro h
  have := congrArg List.length h
  simp [sub] at this

theorem sub_sub_ne_sub {a b c e : Bytes} (hc : (0x2f : UInt8) ∉ c) (he : (0x2f : UInt8) ∉ e) :
    sub (sub a b) c ≠ sub a e := by
  intro h
  exact sub_ne _ _ (sub_inj hc he h).1

theorem subFolder_plain : ∀ {n : Bytes}, (0x2f : UInt8) ∉ n → subFolder n = none
  | [], _ => rfl
  | x :: n, h => by
    have hx : x ≠ 0x2f := fun e => h (by simp [e])
    rw [subFolder, if_neg hx, subFolder_plain fun h' => h (List.mem_cons_of_mem _ h')]
    rfl

theorem run_append (d : Disk) (a b : List FsOp) : d.run (a ++ b) = (d.run a).run b := by
  simp [Disk.run]

/-- Operations of a build whose protocols have the given names. -/
def Owned (names : List Bytes) (out : Bytes) : FsOp → Prop
  | .exists _ => True
  | .createDir path => ∃ n ∈ names, path = sub out n
  | .write path _ => ∃ n ∈ names, ∃ f, EntryName f ∧ path = sub (sub out n) f

theorem Drv.Ready.put_dir {names : List Bytes} {out : Bytes} {d : Disk} (hN : ∀ n ∈ names, EntryName n)
    (h : Ready names out d) {n : Bytes} (hn : n ∈ names) : Ready names out (d.put (sub out n) .dir) := by
  refine ⟨?_, fun m hm => ?_, fun m hm f hf => ?_⟩
  · rw [Disk.put, if_neg (sub_ne _ _).symm]; exact h.here
  · rw [Disk.put]
    split
    · exact .inr rfl
    · exact h.protos m hm
  · rw [Disk.put, if_neg (sub_sub_ne_sub hf.2.1 (hN n hn).2.1)]; exact h.files m hm f hf

theorem Drv.Ready.put_file {names : List Bytes} {out : Bytes} {d : Disk} (hN : ∀ n ∈ names, EntryName n)
    (h : Ready names out d) {n f : Bytes} (hf : EntryName f) (data : Bytes) :
    Ready names out (d.put (sub (sub out n) f) (.file data)) := by
  refine ⟨?_, fun m hm => ?_, fun m hm f' hf' => ?_⟩
  · rw [Disk.put, if_neg (sub_sub_ne _).symm]; exact h.here
  · rw [Disk.put, if_neg (sub_sub_ne_sub hf.2.1 (hN m hm).2.1).symm]; exact h.protos m hm
  · rw [Disk.put]
    split
    · simp
    · exact h.files m hm f' hf'

theorem Drv.Ready.after {names : List Bytes} {out : Bytes} {d : Disk} (hN : ∀ n ∈ names, EntryName n)
    (h : Ready names out d) {o : FsOp} (ho : Owned names out o) : Ready names out (d.after o) := by
  cases o with
  | «exists» => exact h
  | createDir path =>
    obtain ⟨n, hn, rfl⟩ := ho
    simp only [Disk.after]
    split
    · exact h.put_dir hN hn
    · exact h
  | write path data =>
    obtain ⟨n, hn, f, hf, rfl⟩ := ho
    simp only [Disk.after]
    split
    · exact h.put_file hN hf _
    · exact h

theorem Drv.Ready.run {names : List Bytes} {out : Bytes} {d : Disk} (hN : ∀ n ∈ names, EntryName n)
    (h : Ready names out d) {ops : List FsOp} (ho : ∀ o ∈ ops, Owned names out o) :
    Ready names out (d.run ops) := by
  induction ops generalizing d with
  | nil => exact h
  | cons o ops ih =>
    exact ih (h.after hN (ho o (by simp))) fun o' h' => ho o' (List.mem_cons_of_mem _ h')

theorem entry_umbrella : EntryName (utf8 "umbrella.rs") := by
  unfold EntryName
  decide +kernel

theorem plan_owned {g : Generator} {names : List Bytes} {out : Bytes} {c : Protoc} {p : Protocol}
    {there : Bool} (hout : DirPath out) (hg : Flat g) (hN : ∀ n ∈ names, EntryName n)
    (hp : Name.utf8 p.name ∈ names) :
    ∀ o ∈ plan g out c p there, Owned names out o := by
  intro o ho
  unfold plan at ho
  cases hgen : g.generate p with
  | err e => rw [hgen] at ho; cases ho
  | panic => rw [hgen] at ho; cases ho
  | ok files =>
    rw [hgen] at ho
    have hn := hN _ hp
    simp only [join_plain hout hn] at ho
    have hd : DirPath (sub out (Name.utf8 p.name)) := DirPath.sub hn
    rcases List.mem_cons.1 ho with rfl | ho
    · trivial
    rcases List.mem_append.1 ho with ho | ho
    rcases List.mem_append.1 ho with ho | ho
    · split at ho
      · cases ho
      · simp only [List.mem_singleton] at ho
        subst ho
        exact ⟨_, hp, rfl⟩
    · obtain ⟨f, hf, ho⟩ := List.mem_flatMap.1 ho
      have hf' := hg p files hgen f (List.mem_of_mem_filter (List.mem_of_mem_filter hf))
      rw [fileOps, subFolder_plain hf'.2.1, join_plain hd hf'] at ho
      simp only [List.nil_append, List.mem_singleton] at ho
      subst ho
      exact ⟨_, hp, _, hf', rfl⟩
    · split at ho
      · split at ho
        · rw [join_plain hd entry_umbrella, List.mem_singleton] at ho
          subst ho
          exact ⟨_, hp, _, entry_umbrella, rfl⟩
        · cases ho
      · cases ho

theorem trace_owned {g : Generator} {fs : Fs} {names : List Bytes} {out : Bytes} {c : Protoc}
    (hout : DirPath out) (hg : Flat g) (hN : ∀ n ∈ names, EntryName n) {ps : List Protocol}
    (hp : ∀ p ∈ ps, Name.utf8 p.name ∈ names) {t ops : List FsOp} {rs : List Proto}
    (h : Plans g fs out c t ps ops rs) : ∀ o ∈ ops, Owned names out o := by
  induction h with
  | nil => simp
  | cons there ht hr hok rest ih =>
    intro o ho
    rcases List.mem_append.1 ho with ho | ho
    · exact plan_owned hout hg hN (hp _ (by simp)) o ho
    · exact ih (fun p h => hp p (List.mem_cons_of_mem _ h)) o ho

theorem generate_owned {g : Generator} {fs : Fs} {names : List Bytes} {out : Bytes} {c : Protoc}
    (hout : DirPath out) (hg : Flat g) (hN : ∀ n ∈ names, EntryName n)
    (hp : ∀ p ∈ c.protocols, Name.utf8 p.name ∈ names) :
    ∀ o ∈ (Protoc.generate g fs out c []).1, Owned names out o := by
  cases h : Protoc.generate g fs out c [] with
  | mk t r =>
    have bad : (∀ rs, r ≠ .ok rs) → ∀ o ∈ t, Owned names out o := fun hr o ho => by
      obtain ⟨before, p, after, ops, rs, done, hps, hP, rfl, -, hd⟩ := C57_stops g fs out c [] t r h hr
      rw [hps] at hp
      rcases List.mem_append.1 ho with ho | ho
      · exact trace_owned hout hg hN (fun p h => hp p (by simp [h])) hP o (by simpa using ho)
      · exact plan_owned hout hg hN (hp p (by simp)) o (hd.subset ho)
    cases r with
    | ok rs =>
      obtain ⟨ops, rfl, hP⟩ := (C57_all g fs out c [] t rs).1 h
      exact fun o ho => trace_owned hout hg hN hp hP o (by simpa using ho)
    | err e => exact bad (by simp)
    | panic => exact bad (by simp)

/-- **C99.** However many builds were interrupted, whatever they were generating and wherever they
stopped, the output directory is as a build needs it. -/
theorem C99_ready {names : List Bytes} {out : Bytes} {d0 d : Disk} (hout : DirPath out)
    (hN : ∀ n ∈ names, EntryName n) (h0 : Ready names out d0) (h : History names out d0 d) :
    Ready names out d := by
  induction h with
  | start => exact h0
  | @build d d' g c before hg hn hl ih =>
    have hO := generate_owned (fs := d.fs) hout hg hN hn
    cases hl with
    | between k => exact ih.run hN fun o ho => hO o (List.mem_of_mem_take ho)
    | during k junk hk hok =>
      have hr := ih.run hN fun o ho => hO o (List.mem_of_mem_take (i := k) ho)
      obtain ⟨n, hn, f, hf, rfl⟩ := hO _ (List.mem_of_getElem? hk)
      exact hr.put_file hN hf _

theorem settled_nil (d : Disk) : settled d [] [] = d := by
  funext p; simp [settled]

/-- Writes of files in a directory. -/
theorem run_writes {names : List Bytes} {out : Bytes} (hN : ∀ n ∈ names, EntryName n)
    {n : Bytes} (hn : n ∈ names) (d : Disk) (t : List FsOp) (ws : List (Bytes × Bytes))
    (hw : ∀ w ∈ ws, ∃ f, EntryName f ∧ w.1 = sub (sub out n) f) (hr : Ready names out (d.run t))
    (hd : d.run t (sub out n) = some .dir) :
    AllOk d.fs t (ws.map fun w => .write w.1 w.2) ∧
      d.run (t ++ ws.map fun w => .write w.1 w.2) = settled (d.run t) [] ws := by
  induction ws generalizing t with
  | nil => exact ⟨trivial, by simp [settled_nil]⟩
  | cons w ws ih =>
    obtain ⟨f, hf, hw1⟩ := hw w (by simp)
    obtain ⟨wp, wd⟩ := w
    dsimp only at hw1 ⊢
    have hok : (d.run t).ok (.write wp wd) = true := by
      simp only [Disk.ok, hw1, ne_eq, parentOf_sub hf.2.1, hd, Bool.and_eq_true, decide_eq_true_eq]
      exact ⟨hr.files n hn f hf, trivial⟩
    have e : d.run (t ++ [.write wp wd]) = (d.run t).put wp (.file wd) := by
      rw [run_append]
      simp only [Disk.run, List.foldl_cons, List.foldl_nil]
      exact if_pos hok
    have := ih (t ++ [.write wp wd]) (fun w' h => hw w' (List.mem_cons_of_mem _ h))
      (by rw [e, hw1]; exact hr.put_file hN hf _)
      (by rw [e, Disk.put, hw1, if_neg (sub_sub_ne_sub hf.2.1 (hN n hn).2.1).symm]; exact hd)
    refine ⟨⟨hok, this.1⟩, ?_⟩
    have h2 := this.2
    rw [List.append_assoc] at h2
    rw [List.map_cons]
    refine h2.trans ?_
    rw [e]
    funext q
    simp only [settled, List.not_mem_nil, if_false, List.reverse_cons, List.lookup_append]
    cases List.lookup q ws.reverse with
    | some x => rfl
    | none =>
      simp only [Disk.put, Option.none_or, List.lookup_cons, List.lookup_nil]
      by_cases hq : q = wp
      · simp [hq]
      · have : (q == wp) = false := by simpa using hq
        simp [this, hq]

theorem produces_mem {g : Generator} {out : Bytes} {c : Protoc} {p : Protocol} (hg : Flat g) :
    ∀ w ∈ produces g out c p, ∃ f, EntryName f ∧ w.1 = sub (sub out (Name.utf8 p.name)) f := by
  intro w hw
  unfold produces at hw
  cases hgen : g.generate p with
  | err e => rw [hgen] at hw; cases hw
  | panic => rw [hgen] at hw; cases hw
  | ok files =>
    rw [hgen] at hw
    dsimp only at hw
    rcases List.mem_append.1 hw with hw | hw
    · obtain ⟨f, hf, rfl⟩ := List.mem_map.1 hw
      exact ⟨f.name, hg p files hgen f (List.mem_of_mem_filter (List.mem_of_mem_filter hf)), rfl⟩
    · split at hw
      · split at hw
        · rw [List.mem_singleton] at hw
          subst hw
          exact ⟨_, entry_umbrella, rfl⟩
        · cases hw
      · cases hw

theorem plan_eq {g : Generator} {out : Bytes} {c : Protoc} {p : Protocol} {there : Bool}
    {files : List File} (hout : DirPath out) (hg : Flat g) (hn : EntryName (Name.utf8 p.name))
    (hgen : g.generate p = .ok files) :
    plan g out c p there = (.exists (sub out (Name.utf8 p.name)) ::
        if there then [] else [.createDir (sub out (Name.utf8 p.name))]) ++
      (produces g out c p).map fun w => .write w.1 w.2 := by
  have hd : DirPath (sub out (Name.utf8 p.name)) := DirPath.sub hn
  have hf : ∀ f ∈ nonTrivial (files.filter fun f => c.enabled f.ty), EntryName f.name := fun f hf =>
    hg p files hgen f (List.mem_of_mem_filter (List.mem_of_mem_filter hf))
  unfold plan produces
  rw [hgen]
  dsimp only
  rw [join_plain hout hn, join_plain hd entry_umbrella]
  generalize nonTrivial (files.filter fun f => c.enabled f.ty) = chosen at hf
  have h1 : chosen.flatMap (fileOps (sub out (Name.utf8 p.name))) =
      (chosen.map fun f => (sub (sub out (Name.utf8 p.name)) f.name, f.data)).map
        fun w => FsOp.write w.1 w.2 := by
    induction chosen with
    | nil => rfl
    | cons f chosen ih =>
      rw [List.flatMap_cons, ih fun f' h => hf f' (List.mem_cons_of_mem _ h)]
      have h := hf f (by simp)
      rw [fileOps, subFolder_plain h.2.1, join_plain hd h]
      rfl
  have h2 : (chosen.map fun f => Path.join (sub out (Name.utf8 p.name)) f.name) =
      chosen.map fun f => sub (sub out (Name.utf8 p.name)) f.name :=
    List.map_congr_left fun f h => join_plain hd (hf f h)
  rw [h1, h2, List.cons_append, List.map_append, List.append_assoc]
  congr 3
  cases g.umbrella (Name.utf8 p.name)
      (chosen.map fun f => sub (sub out (Name.utf8 p.name)) f.name) with
  | ok u => dsimp only; split <;> rfl
  | err e => rfl
  | panic => rfl

theorem lookup_eq_none_of {k : Bytes} {l : List (Bytes × Bytes)} (h : ∀ w ∈ l, w.1 ≠ k) :
    l.lookup k = none := by
  induction l with
  | nil => rfl
  | cons w l ih =>
    obtain ⟨a, b⟩ := w
    have : (k == a) = false := by simpa using (h (a, b) (by simp)).symm
    rw [List.lookup_cons, this]
    exact ih fun w hw => h w (List.mem_cons_of_mem _ hw)

theorem settled_put {d : Disk} {dir : Bytes} {ws : List (Bytes × Bytes)} (h : ∀ w ∈ ws, w.1 ≠ dir) :
    settled (d.put dir .dir) [] ws = settled d [dir] ws := by
  funext q
  simp only [settled, List.not_mem_nil, if_false, List.mem_singleton, Disk.put]
  by_cases hq : q = dir
  · rw [if_pos hq, if_pos hq, hq, lookup_eq_none_of fun w hw => h w (by simpa using hw)]
  · rw [if_neg hq, if_neg hq]

theorem settled_settled {d : Disk} {dirs dirs' : List Bytes} {ws ws' : List (Bytes × Bytes)}
    (h : ∀ w ∈ ws', w.1 ∉ dirs) :
    settled (settled d dirs ws) dirs' ws' = settled d (dirs ++ dirs') (ws ++ ws') := by
  funext q
  simp only [settled, List.mem_append, List.reverse_append, List.lookup_append]
  by_cases hq' : q ∈ dirs'
  · simp [hq']
  · by_cases hq : q ∈ dirs
    · rw [if_neg hq', if_pos hq, if_pos (.inl hq), lookup_eq_none_of]
      exact fun w hw e => h w (by simpa using hw) (e ▸ hq)
    · rw [if_neg hq', if_neg hq, if_neg (by simp [hq, hq'])]
      cases List.lookup q ws'.reverse <;> rfl

theorem plan_runs {g : Generator} {names : List Bytes} {out : Bytes} {c : Protoc} {p : Protocol}
    {d : Disk} {t : List FsOp} {r : Proto} (hout : DirPath out) (hg : Flat g)
    (hN : ∀ n ∈ names, EntryName n) (hp : Name.utf8 p.name ∈ names)
    (hr : Ready names out (d.run t)) (ho : outcome g out c p = .ok r) :
    AllOk d.fs t (plan g out c p (d.fs t (.exists (Path.join out (Name.utf8 p.name))))) ∧
    d.run (t ++ plan g out c p (d.fs t (.exists (Path.join out (Name.utf8 p.name))))) =
      settled (d.run t) [sub out (Name.utf8 p.name)] (produces g out c p) := by
  have hn := hN _ hp
  obtain ⟨files, hgen⟩ : ∃ files, g.generate p = .ok files := by
    unfold outcome at ho
    cases hgen : g.generate p with
    | ok files => exact ⟨files, rfl⟩
    | err e => rw [hgen] at ho; cases ho
    | panic => rw [hgen] at ho; cases ho
  rw [plan_eq hout hg hn hgen, join_plain hout hn]
  generalize hdir : sub out (Name.utf8 p.name) = dir
  have hpar : parentOf dir = out := by rw [← hdir, parentOf_sub hn.2.1]
  have hmem := produces_mem (out := out) (c := c) (p := p) hg
  rw [hdir] at hmem
  generalize produces g out c p = ws at hmem ⊢
  have hx : d.fs t (.exists dir) = (d.run t dir).isSome := rfl
  rw [hx]
  have key : ∀ (mk : List FsOp), AllOk d.fs t (.exists dir :: mk) →
      d.run (t ++ .exists dir :: mk) = (d.run t).put dir .dir →
      AllOk d.fs t (.exists dir :: mk ++ ws.map fun w => .write w.1 w.2) ∧
      d.run (t ++ (.exists dir :: mk ++ ws.map fun w => .write w.1 w.2)) =
        settled (d.run t) [dir] ws := by
    intro mk h1 h2
    have := run_writes (out := out) hN hp d (t ++ .exists dir :: mk) ws
      (by rw [hdir]; exact hmem) (by rw [h2, ← hdir]; exact hr.put_dir hN hp)
      (by rw [h2, hdir]; simp [Disk.put])
    refine ⟨(AllOk_append ..).2 ⟨h1, this.1⟩, ?_⟩
    rw [← List.append_assoc, this.2, h2]
    exact settled_put fun w hw => by
      obtain ⟨f, hf, e⟩ := hmem w hw
      rw [e]
      exact sub_ne _ _
  rcases hr.protos _ hp with h | h
  · rw [hdir] at h
    have hok : (d.run t).ok (.createDir dir) = true := by
      simp [Disk.ok, h, hpar, hr.here]
    rw [h]
    refine key [.createDir dir] ⟨?_, trivial⟩ ?_
    · show (d.run (t ++ [.exists dir])).ok _ = true
      rw [run_append]
      exact hok
    · rw [run_append]
      exact if_pos hok
  · rw [hdir] at h
    rw [h]
    refine key [] trivial ?_
    rw [run_append]
    funext q
    show d.run t q = _
    unfold Disk.put
    split
    · rename_i e; rw [e, h]
    · rfl

theorem plans_run {g : Generator} {names : List Bytes} {out : Bytes} {c : Protoc} {d : Disk}
    {ps : List Protocol} (hout : DirPath out) (hg : Flat g) (hN : ∀ n ∈ names, EntryName n)
    (hp : ∀ p ∈ ps, Name.utf8 p.name ∈ names) (ho : ∀ p ∈ ps, ∃ r, outcome g out c p = .ok r)
    (t : List FsOp) (hr : Ready names out (d.run t)) :
    ∃ ops rs, Plans g d.fs out c t ps ops rs ∧
      List.Forall₂ (fun p r => outcome g out c p = .ok r) ps rs ∧
      d.run (t ++ ops) = settled (d.run t) (ps.map fun p => sub out (Name.utf8 p.name))
        (ps.flatMap (produces g out c)) := by
  induction ps generalizing t with
  | nil => exact ⟨[], [], .nil t, .nil, by simp [settled_nil]⟩
  | cons p ps ih =>
    obtain ⟨r, hr1⟩ := ho p (by simp)
    have h1 := plan_runs hout hg hN (hp p (by simp)) hr hr1
    have hown := plan_owned (there := d.fs t (.exists (Path.join out (Name.utf8 p.name)))) (c := c)
      hout hg hN (hp p (by simp))
    obtain ⟨ops, rs, hP, hF, he⟩ := ih (fun p h => hp p (List.mem_cons_of_mem _ h))
      (fun p h => ho p (List.mem_cons_of_mem _ h)) _ (by rw [run_append]; exact hr.run hN hown)
    refine ⟨_, _, .cons _ rfl hr1 h1.1 hP, .cons hr1 hF, ?_⟩
    rw [← List.append_assoc, he, h1.2, settled_settled]
    · simp
    · intro w hw hd
      obtain ⟨p', hp', hw⟩ := List.mem_flatMap.1 hw
      obtain ⟨f, hf, e⟩ := produces_mem hg w hw
      rw [List.mem_singleton, e] at hd
      exact sub_sub_ne_sub hf.2.1 (hN _ (hp p (by simp))).2.1 hd

/-- **C99.** A build on a disk that is ready succeeds as soon as the generator does.  What it leaves is
determined: the directories of the protocols, their files and umbrellas, and everything else as it was. -/
theorem C99_build {g : Generator} {names : List Bytes} {out : Bytes} {c : Protoc} {d : Disk}
    (hout : DirPath out) (hg : Flat g) (hN : ∀ n ∈ names, EntryName n)
    (hp : ∀ p ∈ c.protocols, Name.utf8 p.name ∈ names)
    (ho : ∀ p ∈ c.protocols, ∃ r, outcome g out c p = .ok r) (hr : Ready names out d) :
    ∃ ops rs, Protoc.generate g d.fs out c [] = (ops, .ok rs) ∧
      List.Forall₂ (fun p r => outcome g out c p = .ok r) c.protocols rs ∧
      d.run ops = settled d (c.protocols.map fun p => sub out (Name.utf8 p.name))
        (c.protocols.flatMap (produces g out c)) := by
  obtain ⟨ops, rs, hP, hF, he⟩ := plans_run hout hg hN hp ho [] hr
  exact ⟨ops, rs, (C57_all ..).2 ⟨ops, rfl, hP⟩, hF, he⟩

/-- **C99.** Recovery: after any number of interrupted builds, of anything, a build ends as it would have
on the disk the first of them started from: the same report, the same directories and the same contents of
every file it writes. -/
theorem C99_recovers {g : Generator} {names : List Bytes} {out : Bytes} {c : Protoc} {d0 d : Disk}
    (hout : DirPath out) (hg : Flat g) (hN : ∀ n ∈ names, EntryName n)
    (hp : ∀ p ∈ c.protocols, Name.utf8 p.name ∈ names)
    (ho : ∀ p ∈ c.protocols, ∃ r, outcome g out c p = .ok r) (h0 : Ready names out d0)
    (h : History names out d0 d) :
    ∃ ops ops0 rs, Protoc.generate g d.fs out c [] = (ops, .ok rs) ∧
      Protoc.generate g d0.fs out c [] = (ops0, .ok rs) ∧
      (∀ p ∈ c.protocols, d.run ops (sub out (Name.utf8 p.name)) = some .dir) ∧
      ∀ p ∈ c.protocols, ∀ w ∈ produces g out c p, d.run ops w.1 = d0.run ops0 w.1 := by
  obtain ⟨ops, rs, h1, h2, h3⟩ := C99_build hout hg hN hp ho (C99_ready hout hN h0 h)
  obtain ⟨ops0, rs0, k1, k2, k3⟩ := C99_build hout hg hN hp ho h0
  have e : ∀ {ps : List Protocol} {rs rs0 : List Proto},
      List.Forall₂ (fun p r => outcome g out c p = .ok r) ps rs →
      List.Forall₂ (fun p r => outcome g out c p = .ok r) ps rs0 → rs0 = rs := by
    intro ps rs rs0 h h'
    induction h generalizing rs0 with
    | nil => cases h'; rfl
    | cons h _ ih =>
      cases h' with
      | cons h2 h3 =>
        rw [h] at h2
        rw [ih h3, Res.ok.inj h2]
  obtain rfl := e h2 k2
  refine ⟨ops, ops0, _, h1, k1, fun p hp' => ?_, fun p hp' w hw => ?_⟩
  · rw [h3, settled, if_pos (List.mem_map_of_mem hp')]
  · rw [h3, k3]
    unfold settled
    split
    · rfl
    · cases hl : List.lookup w.1 (c.protocols.flatMap (produces g out c)).reverse with
      | some => rfl
      | none =>
        exfalso
        rw [List.lookup_eq_none_iff] at hl
        have := hl w (by simpa using ⟨p, hp', hw⟩)
        simp at this

theorem lookup_nodup {l : List (Bytes × Bytes)} (h : (l.map Prod.fst).Nodup) {w : Bytes × Bytes}
    (hw : w ∈ l) : l.lookup w.1 = some w.2 := by
  induction l with
  | nil => cases hw
  | cons x l ih =>
    obtain ⟨a, b⟩ := x
    rw [List.map_cons, List.nodup_cons] at h
    rcases List.mem_cons.1 hw with rfl | hw
    · simp
    · have : (w.1 == a) = false := by
        simp only [beq_eq_false_iff_ne]
        exact fun e => h.1 (List.mem_map.2 ⟨w, hw, e⟩)
      rw [List.lookup_cons, this]
      exact ih h.2 hw

/-- The files of the Rust generator. -/
theorem rust_names {lib : Lib} {p : Profile} {emb : Nat → Bool} {proto : Protocol} {files : List File}
    (h : (Rust.generator lib p emb).generate proto = .ok files) :
    files.map File.name = [b!"messages.rs", b!"messages_from_slice.rs", b!"messages_write.rs",
      b!"messages_offsets.rs", b!"structures.rs", b!"enums.rs", b!"unions.rs"] := by
  change (match Rust.generate lib p emb proto with
    | .ok files => Res.ok files
    | _ => Res.panic) = _ at h
  cases hg : Rust.generate lib p emb proto with
  | ok files' =>
    rw [hg] at h
    obtain rfl := Res.ok.inj h
    unfold Rust.generate at hg
    simp only [Res.bind_eq_ok] at hg
    obtain ⟨_, -, _, -, _, -, _, -, _, -, _, -, _, -, e⟩ := hg
    obtain rfl := Res.ok.inj e
    rfl
  | err e => cases e
  | panic => rw [hg] at h; cases h

theorem rust_flat (lib : Lib) (p : Profile) (emb : Nat → Bool) : Flat (Rust.generator lib p emb) := by
  intro proto files h f hf
  have h1 := rust_names h
  have h2 : f.name ∈ files.map File.name := List.mem_map_of_mem hf
  rw [h1] at h2
  have h3 : ∀ n ∈ [b!"messages.rs", b!"messages_from_slice.rs", b!"messages_write.rs",
      b!"messages_offsets.rs", b!"structures.rs", b!"enums.rs", b!"unions.rs"], EntryName n := by
    unfold EntryName
    decide +kernel
  exact h3 _ h2

theorem rust_produces {lib : Lib} {p : Profile} {emb : Nat → Bool} {proto : Protocol} {files : List File}
    (out : Bytes) (c : Protoc) (h : (Rust.generator lib p emb).generate proto = .ok files) :
    produces (Rust.generator lib p emb) out c proto =
      (nonTrivial (files.filter fun f => c.enabled f.ty)).map
        (fun f => (sub (sub out (Name.utf8 proto.name)) f.name, f.data)) ++
      [(sub (sub out (Name.utf8 proto.name)) (utf8 "umbrella.rs"),
        Text.umbrellaText lib (Name.utf8 proto.name)
          ((nonTrivial (files.filter fun f => c.enabled f.ty)).map
            fun f => sub (sub out (Name.utf8 proto.name)) f.name))] := by
  unfold produces
  rw [h]
  dsimp only
  rw [C52_umbrella]
  dsimp only
  rw [if_pos (by unfold Text.umbrellaText; simp [List.length_append])]

theorem rust_keys {lib : Lib} {p : Profile} {emb : Nat → Bool} (out : Bytes) (c : Protoc)
    {ps : List Protocol} (hd : (ps.map fun q => Name.utf8 q.name).Nodup)
    (hN : ∀ q ∈ ps, EntryName (Name.utf8 q.name))
    (hg : ∀ q ∈ ps, ∃ files, (Rust.generator lib p emb).generate q = .ok files) :
    ((ps.flatMap (produces (Rust.generator lib p emb) out c)).map Prod.fst).Nodup := by
  rw [List.map_flatMap, List.nodup_flatMap]
  refine ⟨fun q hq => ?_, ?_⟩
  · obtain ⟨files, hf⟩ := hg q hq
    rw [rust_produces out c hf, List.map_append, List.map_map]
    have h1 : ((nonTrivial (files.filter fun f => c.enabled f.ty)).map File.name).Sublist
        (files.map File.name) := (List.filter_sublist.trans List.filter_sublist).map _
    rw [rust_names hf] at h1
    have h2 : [b!"messages.rs", b!"messages_from_slice.rs", b!"messages_write.rs",
      b!"messages_offsets.rs", b!"structures.rs", b!"enums.rs", b!"unions.rs"].Nodup := by
      decide +kernel
    have h3 := h1.nodup h2
    have h4 : utf8 "umbrella.rs" ∉ (nonTrivial (files.filter fun f => c.enabled f.ty)).map File.name :=
      fun h => absurd (h1.subset h) (by decide +kernel)
    have e : (Prod.fst ∘ fun f : File => (sub (sub out (Name.utf8 q.name)) f.name, f.data)) =
        sub (sub out (Name.utf8 q.name)) ∘ File.name := rfl
    rw [e, ← List.map_map]
    generalize (nonTrivial (files.filter fun f => c.enabled f.ty)).map File.name = ns at h3 h4
    have e2 : ns.map (sub (sub out (Name.utf8 q.name))) ++
        [sub (sub out (Name.utf8 q.name)) (utf8 "umbrella.rs")] =
        (ns ++ [utf8 "umbrella.rs"]).map (sub (sub out (Name.utf8 q.name))) := by simp
    simp only [List.map_cons, List.map_nil]
    rw [e2]
    refine List.Nodup.map (fun x y h => by simpa [sub] using h) ?_
    rw [List.nodup_append]
    refine ⟨h3, by simp, fun a ha b hb => ?_⟩
    rw [List.mem_singleton] at hb
    exact fun e => h4 (by rw [← hb, ← e]; exact ha)
  · rw [List.nodup_iff_pairwise_ne, List.pairwise_map] at hd
    refine (List.Pairwise.and_mem.1 hd).imp fun {a b} h => ?_
    intro k ha hb
    obtain ⟨w, hw, rfl⟩ := List.mem_map.1 ha
    obtain ⟨w', hw', e⟩ := List.mem_map.1 hb
    obtain ⟨f, hf, e1⟩ := produces_mem (rust_flat lib p emb) w hw
    obtain ⟨f', hf', e2⟩ := produces_mem (rust_flat lib p emb) w' hw'
    rw [e1, e2] at e
    have h5 := (sub_inj hf'.2.1 hf.2.1 e).1
    exact h.2.2 (sub_inj (hN b h.2.1).2.1 (hN a h.1).2.1 h5).2.symm

/-- **C99.** Rust: after any number of interrupted builds in the same output directory, generating
protocols of different names succeeds, and then every enabled file that is not trivial holds what was
generated for it, and the umbrella includes exactly these. -/
theorem C99_rust {lib : Lib} {p : Profile} {emb : Nat → Bool} {names : List Bytes} {out : Bytes}
    {c : Protoc} {d0 d : Disk} (hout : DirPath out) (hN : ∀ n ∈ names, EntryName n)
    (hp : ∀ q ∈ c.protocols, Name.utf8 q.name ∈ names)
    (hd : (c.protocols.map fun q => Name.utf8 q.name).Nodup)
    (hg : ∀ q ∈ c.protocols, ∃ files, (Rust.generator lib p emb).generate q = .ok files)
    (h0 : Ready names out d0) (h : History names out d0 d) :
    ∃ ops rs, Protoc.generate (Rust.generator lib p emb) d.fs out c [] = (ops, .ok rs) ∧
      ∀ q ∈ c.protocols, ∀ files, (Rust.generator lib p emb).generate q = .ok files →
        (∀ f ∈ files, c.enabled f.ty = true → 1 < f.data.length →
          d.run ops (sub (sub out (Name.utf8 q.name)) f.name) = some (.file f.data)) ∧
        d.run ops (sub (sub out (Name.utf8 q.name)) (utf8 "umbrella.rs")) =
          some (.file (Text.umbrellaText lib (Name.utf8 q.name)
            ((files.filter fun f => c.enabled f.ty && decide (1 < f.data.length)).map
              fun f => sub (sub out (Name.utf8 q.name)) f.name))) := by
  have ho : ∀ q ∈ c.protocols, ∃ r, outcome (Rust.generator lib p emb) out c q = .ok r := by
    intro q hq
    obtain ⟨files, hf⟩ := hg q hq
    unfold outcome
    rw [hf]
    dsimp only
    rw [C52_umbrella]
    exact ⟨_, rfl⟩
  obtain ⟨ops, rs, h1, -, h3⟩ := C99_build hout (rust_flat lib p emb) hN hp ho (C99_ready hout hN h0 h)
  refine ⟨ops, rs, h1, fun q hq files hf => ?_⟩
  have hk := rust_keys (p := p) (emb := emb) (lib := lib) out c hd (fun q hq => hN _ (hp q hq)) hg
  have key : ∀ w ∈ produces (Rust.generator lib p emb) out c q, d.run ops w.1 = some (.file w.2) := by
    intro w hw
    have hnd : w.1 ∉ c.protocols.map fun p => sub out (Name.utf8 p.name) := by
      intro hm
      obtain ⟨q', hq', e⟩ := List.mem_map.1 hm
      obtain ⟨f, hf, e1⟩ := produces_mem (rust_flat lib p emb) w hw
      rw [e1] at e
      exact sub_sub_ne_sub hf.2.1 (hN _ (hp q' hq')).2.1 e.symm
    rw [h3, settled, if_neg hnd, lookup_nodup]
    · rw [List.map_reverse]; exact List.nodup_reverse.2 hk
    · rw [List.mem_reverse]; exact List.mem_flatMap.2 ⟨q, hq, hw⟩
  rw [rust_produces out c hf] at key
  refine ⟨fun f hf' he hl => ?_, ?_⟩
  · exact key (_, f.data) (List.mem_append_left _ (List.mem_map.2 ⟨f, by
      simp [nonTrivial, hf', he, hl], rfl⟩))
  · have := key _ (List.mem_append_right _ (List.mem_singleton.2 rfl))
    simpa [nonTrivial, List.filter_filter, Bool.and_comm] using this

theorem after_ne_none (d : Disk) (o : FsOp) {q : Bytes} (h : d q ≠ none) : d.after o q ≠ none := by
  have put : ∀ path e, d.put path e q ≠ none := fun path e => by
    unfold Disk.put
    split
    · simp
    · exact h
  cases o with
  | «exists» => exact h
  | createDir path => simp only [Disk.after]; split; exacts [put _ _, h]
  | write path data => simp only [Disk.after]; split; exacts [put _ _, h]

theorem run_ne_none (d : Disk) (ops : List FsOp) {q : Bytes} (h : d q ≠ none) : d.run ops q ≠ none := by
  induction ops generalizing d with
  | nil => exact h
  | cons o ops ih => exact ih _ (after_ne_none d o h)

theorem allOk_mem {fs : Fs} {t ops : List FsOp} (h : AllOk fs t ops) {path : Bytes}
    (hm : .createDir path ∈ ops) : ∃ t', fs (t ++ t') (.createDir path) = true := by
  obtain ⟨a, b, rfl⟩ := List.append_of_mem hm
  exact ⟨a, ((AllOk_append ..).1 h).2.1⟩

theorem plans_mem {g : Generator} {fs : Fs} {out : Bytes} {c : Protoc} {t ops : List FsOp}
    {ps : List Protocol} {rs : List Proto} (h : Plans g fs out c t ps ops rs) {p : Protocol}
    (hp : p ∈ ps) : ∃ t' there, AllOk fs t' (plan g out c p there) := by
  induction h with
  | nil => cases hp
  | cons there ht hr hok rest ih =>
    rcases List.mem_cons.1 hp with rfl | hp
    · exact ⟨_, _, hok⟩
    · exact ih hp

/-- **C99.** A generator that puts a file in a folder is not that lucky: once the folder is there, whether
from a complete build or an interrupted one, no build succeeds any more. -/
theorem C99_folder {g : Generator} {out : Bytes} {c : Protoc} {d : Disk} {p : Protocol}
    {files : List File} {f : File} {folder : Bytes} (hp : p ∈ c.protocols)
    (hgen : g.generate p = .ok files) (hf : f ∈ files) (he : c.enabled f.ty = true)
    (hl : 1 < f.data.length) (hs : subFolder f.name = some folder)
    (hd : d (Path.join (Path.join out (Name.utf8 p.name)) folder) ≠ none) (ops : List FsOp)
    (rs : List Proto) : Protoc.generate g d.fs out c [] ≠ (ops, .ok rs) := by
  intro h
  obtain ⟨ops', -, hP⟩ := (C57_all ..).1 h
  obtain ⟨t, there, hok⟩ := plans_mem hP hp
  obtain ⟨t', h1⟩ := allOk_mem hok (path := Path.join (Path.join out (Name.utf8 p.name)) folder) (by
    unfold plan
    rw [hgen]
    refine List.mem_cons_of_mem _ (List.mem_append_left _ (List.mem_append_right _ ?_))
    refine List.mem_flatMap.2 ⟨f, by simp [nonTrivial, hf, he, hl], ?_⟩
    simp [fileOps, hs])
  have h2 := run_ne_none d (t ++ t') hd
  simp only [Disk.fs, Disk.ok, Bool.and_eq_true, Option.isNone_iff_eq_none] at h1
  exact h2 h1.1

namespace Drv.Ex

/-- A generator of two files. -/
def flat : Generator where
  generate p := .ok [⟨utf8 "s.rs", utf8 "struct", .structure⟩, ⟨utf8 "e.rs", Name.utf8 p.name ++ utf8 "enum", .enum⟩]
  umbrella n _ := .ok (n ++ utf8 " umbrella")

/-- An empty output directory. -/
def empty : Disk := fun q => if q = utf8 "o" then some .dir else none

/-- The names of protocols. -/
def names : List Bytes := [utf8 "A", utf8 "b"]

theorem names_entry : ∀ n ∈ names, EntryName n := by
  unfold EntryName
  decide +kernel

theorem flat_flat : Flat flat := by
  intro p files h f hf
  obtain rfl := Res.ok.inj h
  have h3 : ∀ n ∈ [utf8 "s.rs", utf8 "e.rs"], EntryName n := by
    unfold EntryName
    decide +kernel
  simp only [List.mem_cons, List.not_mem_nil, or_false] at hf
  rcases hf with rfl | rfl <;> exact h3 _ (by simp)

theorem empty_ready : Ready names (utf8 "o") empty := by
  refine ⟨if_pos rfl, fun n _ => .inl (if_neg (sub_ne _ _)), fun n _ f _ => ?_⟩
  unfold empty
  rw [if_neg (sub_sub_ne _)]
  simp

theorem dirPath : DirPath (utf8 "o") := by unfold DirPath; decide +kernel

/-- A build of two protocols that crashed while writing the second file of the first of them. -/
def torn : Disk :=
  (empty.run ((Protoc.generate flat empty.fs (utf8 "o") (Protoc.new [proto ['A'], proto ['b']]) []).1.take 3)).put
    (utf8 "o/A/e.rs") (.file (utf8 "Aen"))

theorem torn_history : History names (utf8 "o") empty torn :=
  .build flat (Protoc.new [proto ['A'], proto ['b']]) .start flat_flat (by decide +kernel)
    (.during 3 (path := utf8 "o/A/e.rs") (data := utf8 "Aenum") _ (by decide +kernel) (by decide +kernel))

/-- What the crash left: the first file, a part of the second one, no umbrella, nothing of `b`. -/
example : torn (utf8 "o/A/s.rs") = some (.file (utf8 "struct")) ∧
    torn (utf8 "o/A/e.rs") = some (.file (utf8 "Aen")) ∧ torn (utf8 "o/A/umbrella.rs") = none ∧
    torn (utf8 "o/b") = none := by decide +kernel

/-- Building again. -/
example : ∃ ops rs, Protoc.generate flat torn.fs (utf8 "o") (Protoc.new [proto ['A'], proto ['b']]) [] =
      (ops, .ok rs) ∧ torn.run ops (utf8 "o/A/e.rs") = some (.file (utf8 "Aenum")) ∧
      torn.run ops (utf8 "o/b/e.rs") = some (.file (utf8 "benum")) := by
  obtain ⟨ops, rs, h, -, e⟩ := C99_build (c := Protoc.new [proto ['A'], proto ['b']]) dirPath flat_flat names_entry
    (by decide +kernel) (fun p _ => ⟨_, rfl⟩) (C99_ready dirPath names_entry empty_ready torn_history)
  refine ⟨ops, rs, h, ?_, ?_⟩ <;> rw [e] <;> decide +kernel

/-- A file that is no longer generated stays. -/
example : ∃ ops rs, Protoc.generate flat torn.fs (utf8 "o")
        ((Protoc.new [proto ['A']]).setUseEnums false) [] = (ops, .ok rs) ∧
      torn.run ops (utf8 "o/A/e.rs") = some (.file (utf8 "Aen")) := by
  obtain ⟨ops, rs, h, -, e⟩ := C99_build (c := (Protoc.new [proto ['A']]).setUseEnums false) dirPath flat_flat
    names_entry (by decide +kernel) (fun p _ => ⟨_, rfl⟩)
    (C99_ready dirPath names_entry empty_ready torn_history)
  refine ⟨ops, rs, h, ?_⟩
  rw [e]
  decide +kernel

/-- An enumeration. -/
def colours : Enum := ⟨['C'], 1, [(['R'], 0), (['G'], 1)]⟩

/-- A protocol of one enumeration. -/
def coloured : Protocol := ⟨['A'], .little, [], [], [], [], [], [], [], [colours], []⟩

/-- The Rust generator after the crash. -/
example (lib : Lib) : ∃ ops rs, Protoc.generate (Rust.generator lib .checked fun _ => true) torn.fs (utf8 "o")
      (Protoc.new [coloured]) [] = (ops, .ok rs) ∧
    torn.run ops (utf8 "o/A/enums.rs") = some (.file (Text.enumText colours)) := by
  have hf := C52_files lib .checked (fun _ => true) coloured (fun _ => ([], none)) (by simp [coloured])
    (by simp [coloured]) (by simp [coloured])
  obtain ⟨ops, rs, h, k⟩ := C99_rust (lib := lib) (p := .checked) (emb := fun _ => true)
    (c := Protoc.new [coloured]) dirPath names_entry (by decide +kernel) (by simp [Protoc.new])
    (by intro q hq; simp only [Protoc.new, List.mem_singleton] at hq; subst hq; exact ⟨_, hf⟩)
    empty_ready torn_history
  refine ⟨ops, rs, h, ?_⟩
  have := (k coloured (by simp [Protoc.new]) _ hf).1 ⟨b!"enums.rs", Text.spaced [Text.enumText colours], .enum⟩
    (by simp only [Text.files, List.mem_cons]; simp [coloured]) rfl ?_
  · refine Eq.trans ?_ this
    exact congrArg _ (by decide +kernel)
  · show 1 < (Text.enumText colours).length
    simp [Text.enumText]

/-- A file in a folder: the second build fails. -/
example : ∃ ops rs, Protoc.generate gen empty.fs (utf8 "o") ((Protoc.new [proto ['A']]).setWritesMessages true) [] =
      (ops, .ok rs) ∧ ∀ ops' rs', Protoc.generate gen (empty.run ops).fs (utf8 "o")
        ((Protoc.new [proto ['A']]).setWritesMessages true) [] ≠ (ops', .ok rs') :=
  ⟨_, [⟨utf8 "A", utf8 "o/A/umbrella.rs"⟩], Prod.ext rfl (by decide +kernel), fun ops' rs' =>
    C99_folder (p := proto ['A']) (f := ⟨utf8 "s/w.rs", utf8 "ww", .messageWriting⟩) (folder := utf8 "s")
      (by simp [Protoc.new, Protoc.setWritesMessages]) rfl (by simp) rfl (by decide +kernel) (by decide +kernel)
      (by decide +kernel) ops' rs'⟩

end Drv.Ex

end Proto
