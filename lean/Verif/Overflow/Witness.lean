import Verif.Overflow.Rows

/-! # Cases that meet the hypotheses -/
namespace Ceres.Overflow

open Ceres.Evaluator

/-- A block of 32768 coordinates in two residual blocks of 32768 residuals: 2^31 entries. -/
def big : Prog := ⟨[32768], [⟨32768, [some 0]⟩, ⟨32768, [some 0]⟩]⟩

/-- A block of 2 coordinates and one of 3, and a constant one. -/
def small : Prog := ⟨[2, 3], [⟨2, [some 0, some 1]⟩, ⟨1, [none, some 1]⟩]⟩

theorem args_one (n : ℕ) : activeArgs ⟨n, [some 0]⟩ = [(0, 0)] := rfl
theorem args_two (n : ℕ) : activeArgs ⟨n, [some 0, some 1]⟩ = [(0, 0), (1, 1)] := rfl
theorem args_const (n : ℕ) : activeArgs ⟨n, [none, some 1]⟩ = [(1, 1)] := rfl

theorem big_sane : Sane big where
  ok := by intro rb hrb; simp [big] at hrb; subst hrb; simp [activeArgs, big]
  rows := by norm_num [big, Prog.numRows, intMax]
  cols := by norm_num [big, intMax]
  block := by intro rb hrb p hp; simp [big] at hrb; subst hrb; simp [activeArgs] at hp; subst hp; norm_num [big, Prog.size, intMax]
  args := by intro rb hrb; simp [big] at hrb; subst hrb; norm_num [intMax]
  residuals := by intro rb hrb; simp [big] at hrb; subst hrb; norm_num
  sizes := by intro rb hrb p hp; simp [big] at hrb; subst hrb; simp [activeArgs] at hp; subst hp; norm_num [big, Prog.size]

theorem big_entries : entries big = 2 ^ 31 := by
  norm_num [entries, big, args_one, Prog.size]

theorem small_sane : Sane small where
  ok := by intro rb hrb; simp [small] at hrb; rcases hrb with rfl | rfl <;> simp [activeArgs, small]
  rows := by norm_num [small, Prog.numRows, intMax]
  cols := by norm_num [small, intMax]
  block := by
    intro rb hrb p hp; simp [small] at hrb
    rcases hrb with rfl | rfl <;> simp [activeArgs] at hp
    · rcases hp with rfl | rfl <;> norm_num [small, Prog.size, intMax]
    · subst hp; norm_num [small, Prog.size, intMax]
  args := by intro rb hrb; simp [small] at hrb; rcases hrb with rfl | rfl <;> norm_num [intMax]
  residuals := by intro rb hrb; simp [small] at hrb; rcases hrb with rfl | rfl <;> norm_num
  sizes := by
    intro rb hrb p hp; simp [small] at hrb
    rcases hrb with rfl | rfl <;> simp [activeArgs] at hp
    · rcases hp with rfl | rfl <;> norm_num [small, Prog.size]
    · subst hp; norm_num [small, Prog.size]

theorem small_entries : entries small = 13 := by
  norm_num [entries, small, args_two, args_const, Prog.size]

/-- With nothing eliminated the large Jacobian is refused, and the solve reports it. -/
example : buildLayout big 0 = .refused ∧ setupMinimizer (buildLayout big 0) =
    .ok (.inl "Unable to create Jacobian matrix. Likely because it is too large.") := by
  have he : eEntries big 0 ≤ intMax := by norm_num [eEntries_eSum, eSum, sumE, big, activeArgs, intMax]
  have h : intMax < entries big := by rw [big_entries]; norm_num [intMax]
  refine ⟨?_, (setup_reports (α := ℤ) big_sane).1 0 he h⟩
  rw [block_exact big_sane he, if_neg (not_le.2 h)]

/-- With the block eliminated an `int` overflows. -/
example : buildLayout big 1 = .undefined := by
  refine block_all_e_undefined big_sane ?_ ?_ ?_
  · intro rb hrb p hp; simp [big] at hrb; subst hrb; simp [activeArgs] at hp; subst hp; norm_num
  · norm_num [big, args_one, intMax]
  · rw [big_entries]; norm_num [intMax]

/-- `Problem::Evaluate` of the large Jacobian dereferences a null pointer. -/
example : evaluate (α := ℤ) big true = .undefined :=
  (evaluate_crashes big_sane (by rw [big_entries]; norm_num [intMax, big])).1

/-- The small Jacobian is made by both. -/
example : ∃ M : CRS ℤ, createJacobian small = .ok M ∧ M.rows 3 = 13 := by
  rcases crs_exact (α := ℤ) small_sane with ⟨h, -⟩ | ⟨-, M, -, h, hr⟩
  · rw [small_entries] at h; norm_num [intMax, small] at h
  · rw [small_entries] at hr; exact ⟨M, h, hr⟩

example : ∃ L, buildLayout small 1 = .ok L := by
  refine ⟨_, (block_exact small_sane ?_).trans (if_pos ?_)⟩
  · norm_num [eEntries_eSum, eSum, sumE, small, args_two, args_const, intMax, Prog.size]
  · rw [small_entries]; norm_num [intMax]

end Ceres.Overflow
