import Verif.Partition.Model
import Mathlib.Data.List.Basic
import Mathlib.Data.Int.Order.Basic
import Mathlib.Tactic.Ring
import Mathlib.Tactic.Linarith
/-!
# C21: work partitioning is an optimal contiguous cover
-/
namespace Ceres.Partition

/-! ### Specification -/

/-- Total cost of the indices below `i`. -/
def pre (cum : Nat → Int) (i : Nat) : Int := if i = 0 then 0 else cum (i - 1)

/-- `p` is a list of increasing boundaries from `start` to `stop` forming at most `k` parts. -/
structure IsPartition (start stop k : Nat) (p : List Nat) : Prop where
  first : p.head? = some start
  last : p.getLast? = some stop
  increasing : p.Pairwise (· < ·)
  count : p.length ≤ k + 1

/-- The parts (consecutive boundary pairs). -/
def parts (p : List Nat) : List (Nat × Nat) := p.zip p.tail

/-- Cost of the part `[a, b)`. -/
def partCost (cum : Nat → Int) (ab : Nat × Nat) : Int := pre cum ab.2 - pre cum ab.1

/-! ### Lemmas -/

theorem partPoint_spec (cum : Nat → Int) (target : Int) (ps stop : Nat) (h : ps ≤ stop) :
    partPoint cum target ps stop ≤ stop ∧
    (∀ i, ps ≤ i → i < partPoint cum target ps stop → cum i ≤ target) ∧
    (partPoint cum target ps stop < stop → target < cum (partPoint cum target ps stop)) := by
  fun_induction partPoint cum target ps stop with
  | case1 ps hc ih =>
    obtain ⟨h1, h2, h3⟩ := ih (by omega)
    refine ⟨h1, ?_, h3⟩
    intro i hi hlt
    by_cases hip : i = ps
    · rw [hip]; exact hc.2
    · exact h2 i (by omega) hlt
  | case2 ps hc =>
    refine ⟨h, fun i h1 h2 => by omega, fun hlt => ?_⟩
    by_contra hle
    exact hc ⟨hlt, by omega⟩

/-- A chain of boundaries from `x` to `stop`, all of whose parts cost at most `c`. -/
inductive Chain (cum : Nat → Int) (stop : Nat) (c : Int) : Nat → Nat → Prop where
  | done : Chain cum stop c stop 0
  | part (a b m : Nat) : a < b → pre cum b - pre cum a ≤ c → Chain cum stop c b m →
      Chain cum stop c a (m + 1)

theorem Chain.le {cum : Nat → Int} {stop : Nat} {c : Int} {a m : Nat}
    (h : Chain cum stop c a m) : a ≤ stop := by
  induction h with
  | done => exact Nat.le_refl _
  | part a b m hab _ _ ih => omega

theorem chain_of_list {cum : Nat → Int} {stop : Nat} {c : Int} (p : List Nat) (x : Nat)
    (hl : (x :: p).getLast? = some stop) (hp : (x :: p).Pairwise (· < ·))
    (hc : ∀ ab ∈ parts (x :: p), partCost cum ab ≤ c) : Chain cum stop c x p.length := by
  induction p generalizing x with
  | nil =>
    simp only [List.getLast?_singleton, Option.some.injEq] at hl
    subst hl
    exact Chain.done
  | cons y p ih =>
    obtain ⟨h1, h2⟩ := List.pairwise_cons.1 hp
    refine Chain.part x y p.length (h1 y (by simp)) ?_ ?_
    · have := hc (x, y) (by simp [parts])
      exact this
    · apply ih y
      · rw [← hl]; simp [List.getLast?_cons_cons]
      · exact h2
      · intro ab hab
        apply hc
        unfold parts at hab ⊢
        simp only [List.tail_cons, List.zip_cons_cons, List.mem_cons] at hab ⊢
        exact Or.inr hab

theorem feasLoop_complete (cum : Nat → Int) (stop maxParts : Nat) (cost : Int)
    (hmono : ∀ i j, i ≤ j → j ≤ stop → pre cum i ≤ pre cum j)
    (ps : Nat) (off : Int) (acc : List Nat) (hps : ps ≤ stop) (hoff : off = pre cum ps)
    (x m : Nat) (hx : x ≤ ps) (hch : Chain cum stop cost x m)
    (hm : m + acc.length ≤ maxParts + 1) :
    (feasLoop cum stop maxParts cost ps off acc).isSome := by
  fun_induction feasLoop cum stop maxParts cost ps off acc generalizing x m with
  | case1 ps off acc hlt hlen =>
    exfalso
    have : m = 0 := by omega
    subst this
    cases hch
    omega
  | case2 ps off acc hlt hlen heq =>
    exfalso
    obtain ⟨_, _, h3⟩ := partPoint_spec cum (cost + off) ps stop hps
    rw [heq] at h3
    have h3 := h3 hlt
    -- some chain element straddles ps
    have : ∀ x m, Chain cum stop cost x m → x ≤ ps → pre cum (ps + 1) - pre cum ps ≤ cost := by
      intro x m hch
      induction hch with
      | done => intro hx; omega
      | part a b m hab hc hch ih =>
        intro hx
        by_cases hb : b ≤ ps
        · exact ih hb
        · have hbs := hch.le
          have h4 := hmono (ps + 1) b (by omega) hbs
          have h5 := hmono a ps hx hps
          omega
    have := this x m hch hx
    simp only [pre] at this hoff
    rw [hoff] at h3
    simp only [Nat.add_sub_cancel] at this
    split at this <;> split at h3 <;> simp_all <;> omega
  | case3 ps off acc hlt hlen hne ih =>
    obtain ⟨h1, h2, h3⟩ := partPoint_spec cum (cost + off) ps stop hps
    have hge := partPoint_ge cum (cost + off) ps stop
    generalize partPoint cum (cost + off) ps stop = pe at *
    have hpe : 0 < pe := by omega
    have hoff' : cum (pe - 1) = pre cum pe := by
      unfold pre; rw [if_neg (by omega)]
    cases hch with
    | done => omega
    | part a b m hab hc hch =>
      have hb : b ≤ pe := by
        by_contra hb
        have hbs := hch.le
        have h4 := h3 (by omega)
        have h5 := hmono (pe + 1) b (by omega) hbs
        have h6 := hmono x ps hx hps
        have h7 : pre cum (pe + 1) = cum pe := by simp [pre]
        omega
      refine ih h1 hoff' b m hb hch ?_
      simp only [List.length_append, List.length_cons, List.length_nil]
      omega
  | case4 => rfl

theorem parts_append (acc : List Nat) (x y : Nat) (h : acc.getLast? = some x) :
    parts (acc ++ [y]) = parts acc ++ [(x, y)] := by
  induction acc with
  | nil => simp at h
  | cons a acc ih =>
    cases acc with
    | nil =>
      simp only [List.getLast?_singleton, Option.some.injEq] at h
      subst h
      simp [parts]
    | cons b acc =>
      have h' : (b :: acc).getLast? = some x := by
        rw [← h]; simp [List.getLast?_cons_cons]
      have := ih h'
      unfold parts at this ⊢
      simp only [List.cons_append, List.tail_cons, List.zip_cons_cons] at this ⊢
      rw [this]

theorem feasLoop_sound (cum : Nat → Int) (stop maxParts : Nat) (cost : Int)
    (start ps : Nat) (off : Int) (acc : List Nat) (hps : ps ≤ stop) (hoff : off = pre cum ps)
    (hf : acc.head? = some start) (hl : acc.getLast? = some ps) (hs : acc.Pairwise (· < ·))
    (hlast : ∀ i ∈ acc, i ≤ ps)
    (hc : ∀ ab ∈ parts acc, partCost cum ab ≤ cost) (hk : acc.length ≤ maxParts + 1)
    (p : List Nat) (hp : feasLoop cum stop maxParts cost ps off acc = some p) :
    IsPartition start stop maxParts p ∧ ∀ ab ∈ parts p, partCost cum ab ≤ cost := by
  fun_induction feasLoop cum stop maxParts cost ps off acc with
  | case1 ps off acc hlt hlen => simp at hp
  | case2 ps off acc hlt hlen heq => simp at hp
  | case3 ps off acc hlt hlen hne ih =>
    obtain ⟨h1, h2, h3⟩ := partPoint_spec cum (cost + off) ps stop hps
    have hge := partPoint_ge cum (cost + off) ps stop
    generalize partPoint cum (cost + off) ps stop = pe at *
    have hoff' : cum (pe - 1) = pre cum pe := by
      unfold pre; rw [if_neg (by omega)]
    apply ih h1 hoff'
    · cases acc with
      | nil => simp at hf
      | cons a acc => simpa using hf
    · simp
    · rw [List.pairwise_append]
      refine ⟨hs, by simp, ?_⟩
      intro a ha b hb
      simp only [List.mem_singleton] at hb
      have := hlast a ha
      omega
    · intro i hi
      rcases List.mem_append.1 hi with hi | hi
      · have := hlast i hi; omega
      · simp only [List.mem_singleton] at hi; omega
    · intro ab hab
      rw [parts_append acc ps pe hl] at hab
      rcases List.mem_append.1 hab with hab | hab
      · exact hc ab hab
      · simp only [List.mem_singleton] at hab
        subst hab
        have := h2 (pe - 1) (by omega) (by omega)
        simp only [partCost]
        omega
    · simp only [List.length_append, List.length_cons, List.length_nil]; omega
    · exact hp
  | case4 ps off acc hlt =>
    simp only [Option.some.injEq] at hp
    subst hp
    have : ps = stop := by omega
    subst this
    exact ⟨⟨hf, hl, hs, hk⟩, hc⟩

/-- No admissible partition has all parts of cost at most `c`. -/
def NoneBelow (cum : Nat → Int) (start stop k : Nat) (c : Int) : Prop :=
  ∀ q, IsPartition start stop k q → ∃ ab ∈ parts q, c < partCost cum ab

theorem chain_of_partition {cum : Nat → Int} {start stop k : Nat} {c : Int} {q : List Nat}
    (hq : IsPartition start stop k q) (hc : ∀ ab ∈ parts q, partCost cum ab ≤ c) :
    ∃ m, m ≤ k ∧ Chain cum stop c start m := by
  cases q with
  | nil => have := hq.first; simp at this
  | cons a q =>
    have := hq.first
    simp only [List.head?_cons, Option.some.injEq] at this
    subst this
    refine ⟨q.length, ?_, chain_of_list q a hq.last hq.increasing hc⟩
    have := hq.count
    simp only [List.length_cons] at this
    omega

theorem search_spec (cum : Nat → Int) (start stop maxParts : Nat) (hlt : start ≤ stop)
    (hmono : ∀ i j, i ≤ j → j ≤ stop → pre cum i ≤ pre cum j) (hmax : 0 < maxParts)
    (off lo hi : Int) (best : List Nat) (hoff : off = pre cum start)
    (hb : IsPartition start stop maxParts best) (hbc : ∀ ab ∈ parts best, partCost cum ab ≤ hi)
    (hlo : NoneBelow cum start stop maxParts lo) (hle : lo < hi) :
    ∃ c, IsPartition start stop maxParts (search cum start stop maxParts off lo hi best) ∧
      (∀ ab ∈ parts (search cum start stop maxParts off lo hi best), partCost cum ab ≤ c) ∧
      NoneBelow cum start stop maxParts (c - 1) := by
  fun_induction search cum start stop maxParts off lo hi best with
  | case1 lo hi best hgt p hp ih =>
    have := feasLoop_sound cum stop maxParts (lo + (hi - lo) / 2) start start off [start] hlt
      hoff (by simp) (by simp) (by simp) (by simp) (by simp [parts]) (by simp) p hp
    exact ih this.1 this.2 hlo (by omega)
  | case2 lo hi best hgt hp ih =>
    apply ih hb hbc
    · intro q hq
      by_contra hno
      push Not at hno
      obtain ⟨m, hm, hch⟩ := chain_of_partition hq hno
      have := feasLoop_complete cum stop maxParts (lo + (hi - lo) / 2) hmono start off [start] hlt
        hoff start m (Nat.le_refl _) hch (by simp; omega)
      unfold feasible at hp
      rw [hp] at this
      simp at this
    · omega
  | case3 lo hi best hle' =>
    refine ⟨hi, hb, hbc, ?_⟩
    have : hi - 1 = lo := by omega
    rw [this]; exact hlo

theorem chain_total {cum : Nat → Int} {stop : Nat} {c : Int} {a m : Nat}
    (h : Chain cum stop c a m) : pre cum stop - pre cum a ≤ m * c := by
  induction h with
  | done => simp
  | part a b m hab hc _ ih =>
    push_cast
    have : ((m : Int) + 1) * c = m * c + c := by ring
    omega

/-- **C21.**  For every non-empty range, every positive number of parts and all non-decreasing
cumulative costs, the result is a partition into at most that many parts, and the cost of its
most expensive part is the least possible: every other partition has a part at least as
expensive. -/
theorem partitionRange_optimal (cum : Nat → Int) (start stop maxParts : Nat)
    (hrange : start < stop) (hmax : 0 < maxParts)
    (hmono : ∀ i j, i ≤ j → j ≤ stop → pre cum i ≤ pre cum j) :
    IsPartition start stop maxParts (partitionRange cum start stop maxParts) ∧
    ∀ q, IsPartition start stop maxParts q →
      ∃ ab ∈ parts q, ∀ cd ∈ parts (partitionRange cum start stop maxParts),
        partCost cum cd ≤ partCost cum ab := by
  have hoff : (if start = 0 then 0 else cum (start - 1)) = pre cum start := rfl
  have htot : cum (stop - 1) = pre cum stop := by unfold pre; rw [if_neg (by omega)]
  have htp : 0 ≤ pre cum stop - pre cum start := by
    have := hmono start stop (by omega) (Nat.le_refl _); omega
  unfold partitionRange
  simp only [hoff, htot]
  generalize ht : pre cum stop - pre cum start = total at *
  have hm1 : (1 : Int) ≤ maxParts := by omega
  have hdiv : (maxParts : Int) * (total / maxParts) ≤ total := Int.mul_ediv_self_le (by omega)
  have hdiv0 : 0 ≤ total / maxParts := Int.ediv_nonneg htp (by omega)
  have hdivle : total / maxParts ≤ total := Int.ediv_le_self _ htp
  obtain ⟨c, h1, h2, h3⟩ := search_spec cum start stop maxParts (by omega) hmono hmax
    (pre cum start) (total / maxParts - 1) total [start, stop] rfl
    ⟨by simp, by simp, by simp [hrange], by simp; omega⟩
    (by
      intro ab hab
      simp only [parts, List.tail_cons, List.zip_cons_cons, List.zip_nil_right,
        List.mem_singleton] at hab
      subst hab
      simp only [partCost]; omega)
    (by
      intro q hq
      by_contra hno
      push Not at hno
      obtain ⟨m, hm, hch⟩ := chain_of_partition hq hno
      have htotal := chain_total hch
      rw [ht] at htotal
      have hmpos : 0 < m := by
        rcases Nat.eq_zero_or_pos m with h0 | h0
        · subst h0; cases hch; omega
        · exact h0
      have hmk : (m : Int) ≤ maxParts := by omega
      by_cases hz : total / maxParts - 1 < 0
      · have : (m : Int) * (total / maxParts - 1) < 0 :=
          Int.mul_neg_of_pos_of_neg (by omega) hz
        omega
      · have h4 : (m : Int) * (total / maxParts - 1) ≤ maxParts * (total / maxParts - 1) :=
          Int.mul_le_mul_of_nonneg_right hmk (by omega)
        have h5 : (maxParts : Int) * (total / maxParts - 1) =
          maxParts * (total / maxParts) - maxParts := by ring
        omega)
    (by omega)
  refine ⟨h1, ?_⟩
  intro q hq
  obtain ⟨ab, hab, hlt⟩ := h3 q hq
  refine ⟨ab, hab, fun cd hcd => ?_⟩
  have := h2 cd hcd
  omega

/-! ### Non-vacuity -/

/-- Costs 3, 1, 4, 1, 5 of indices 0..4, cumulative. -/
def exCum : Nat → Int := fun i => [3, 4, 8, 9, 14].getD i 14

example : ∀ i j, i ≤ j → j ≤ 5 → pre exCum i ≤ pre exCum j := by
  have : ∀ j, j < 6 → ∀ i, i < j + 1 → pre exCum i ≤ pre exCum j := by decide
  exact fun i j hij hj => this j (by omega) i (by omega)
/-- `{3,1}, {4,1}, {5}`: optimal maximum 5. -/
example : partitionRange exCum 0 5 3 = [0, 2, 4, 5] := by
  simp [partitionRange, search, feasible, feasLoop, partPoint, exCum]

end Ceres.Partition
