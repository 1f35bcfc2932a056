import Verif.Props.Concurrent
import Verif.Props.Recovery

/-! Further concrete cases, as in `Cases.lean`: builds. -/

namespace Proto.Drv.Ex

open Tpl (utf8)

/-- Both builds of two of the same ended, so what is on the disk is what one alone leaves. -/
example : ∃ envs e ops rs, Runs [both, both] (utf8 "o") empty envs e ∧
    Protoc.generate flat empty.fs (utf8 "o") (Protoc.new [proto ['A'], proto ['b']]) [] = (ops, .ok rs) ∧
    empty.run e.ops = empty.run ops := by
  obtain ⟨envs, e, rs, h, h0, h1⟩ := C112_real dirPath names_entry both_sound empty_ready
    (p := proto ['A']) (ps := [proto ['b']]) rfl (if_neg (sub_ne _ _))
  obtain ⟨ops, rs', g1, g2, -⟩ := C112_same dirPath names_entry both_sound empty_ready (by simp)
    (by simp) (by decide +kernel) h (by
      intro i hi
      match i with
      | 0 => exact ⟨_, h0⟩
      | 1 => exact ⟨_, h1⟩
      | i + 2 => simp at hi; omega)
  exact ⟨envs, e, ops, rs', h, g1, g2⟩

/-- The build that failed saw no directory and met one when it made it. -/
example : ∃ envs e, Runs [both, both] (utf8 "o") empty envs e ∧ ∃ (p : Protocol) (u v w x : Schedule),
    p ∈ both.conf.protocols ∧
    e = u ++ (1, .exists (sub (utf8 "o") (Name.utf8 p.name))) ::
      (v ++ (0, .createDir (sub (utf8 "o") (Name.utf8 p.name))) ::
      (w ++ (1, .createDir (sub (utf8 "o") (Name.utf8 p.name))) :: x)) := by
  obtain ⟨envs, e, rs, h, h0, h1⟩ := C112_real dirPath names_entry both_sound empty_ready
    (p := proto ['A']) (ps := [proto ['b']]) rfl (if_neg (sub_ne _ _))
  obtain ⟨-, b, p, j, u, v, w, x, hb, hp, hj, he, -⟩ := C112_race dirPath names_entry (by simp [both_sound])
    empty_ready h h1 (by simp)
  cases hb
  have hj0 : j = 0 := by
    have : (j, FsOp.createDir (sub (utf8 "o") (Name.utf8 p.name))) ∈ e := by rw [he]; simp
    have hlt := h.known _ this
    simp at hlt
    omega
  subst hj0
  exact ⟨envs, e, h, p, u, v, w, x, hp, he⟩

theorem apart_sound : ∀ b ∈ [onlyA, onlyB], Sound names (utf8 "o") b := by
  intro b hb
  simp only [List.mem_cons, List.not_mem_nil, or_false] at hb
  rcases hb with rfl | rfl <;> exact ⟨flat_flat, by decide +kernel, fun p _ => ⟨_, rfl⟩⟩

example := C112_contents dirPath names_entry apart_sound turns_run (utf8 "o/b/e.rs")

example := C112_some dirPath names_entry apart_sound empty_ready turns_run (by simp)

/-- Building after the crash makes what building at first would have. -/
example : ∃ ops ops0 rs, Protoc.generate flat torn.fs (utf8 "o") (Protoc.new [proto ['A'], proto ['b']]) [] =
      (ops, .ok rs) ∧
    Protoc.generate flat empty.fs (utf8 "o") (Protoc.new [proto ['A'], proto ['b']]) [] = (ops0, .ok rs) ∧
    torn.run ops (utf8 "o/A/e.rs") = empty.run ops0 (utf8 "o/A/e.rs") := by
  obtain ⟨ops, ops0, rs, h1, h2, -, h3⟩ := C99_recovers (c := Protoc.new [proto ['A'], proto ['b']]) dirPath
    flat_flat names_entry (by decide +kernel) (fun p _ => ⟨_, rfl⟩) empty_ready torn_history
  exact ⟨ops, ops0, rs, h1, h2, h3 (proto ['A']) (by simp [Protoc.new]) (utf8 "o/A/e.rs", utf8 "Aenum")
    (by decide +kernel)⟩

end Proto.Drv.Ex
