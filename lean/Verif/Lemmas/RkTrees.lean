import Verif.Lemmas.RungeKutta
import Mathlib.Algebra.BigOperators.Fin

/-!
# Order conditions on rooted trees, evaluated with integers

A planar rooted tree is built from the single vertex by attaching trees as last children of the root.  The elementary weights
of all trees up to a given order are computed with integer coefficients.
-/

open scoped BigOperators

namespace PyNLO.RK

/-- Planar rooted trees, built by attaching children. -/
inductive BT where
  | dot
  | graft (u v : BT)

namespace BT

def ord : BT → ℕ
  | dot => 1
  | graft u v => u.ord + v.ord

/-- The density without the factor of the root. -/
def rdens : BT → ℕ
  | dot => 1
  | graft u v => u.rdens * (v.ord * v.rdens)

noncomputable def stage (a : ℕ → ℕ → ℝ) : BT → ℕ → ℝ
  | dot, _ => 1
  | graft u v, i => u.stage a i * ∑ l ∈ Finset.range i, a i l * v.stage a l

theorem ord_pos (t : BT) : 0 < t.ord := by
  induction t with
  | dot => exact Nat.one_pos
  | graft u v hu hv => simp only [ord]; omega

theorem ord_foldl (u : BT) (l : List BT) : (l.foldl graft u).ord = u.ord + (l.map ord).sum := by
  induction l generalizing u with
  | nil => rfl
  | cons v l ih => simp only [List.foldl_cons, ih, ord, List.map_cons, List.sum_cons]; omega

theorem rdens_foldl (u : BT) (l : List BT) : (l.foldl graft u).rdens = u.rdens * (l.map fun v => v.ord * v.rdens).prod := by
  induction l generalizing u with
  | nil => simp
  | cons v l ih => simp only [List.foldl_cons, ih, rdens, List.map_cons, List.prod_cons]; ring

theorem stage_foldl (a : ℕ → ℕ → ℝ) (u : BT) (l : List BT) (i : ℕ) : (l.foldl graft u).stage a i =
    u.stage a i * (l.map fun v => ∑ m ∈ Finset.range i, a i m * v.stage a m).prod := by
  induction l generalizing u with
  | nil => simp
  | cons v l ih => simp only [List.foldl_cons, ih, stage, List.map_cons, List.prod_cons]; ring

end BT

variable {K : ℕ}

/-- The same tree, built by attaching children. -/
def Tr.toBT : ∀ {d}, Tr K d → BT
  | 0, t => nomatch t
  | _ + 1, ⟨_, ts⟩ => (List.ofFn fun j => (ts j).toBT).foldl BT.graft BT.dot

theorem toBT_mk {d : ℕ} (k : Fin (K + 1)) (ts : Fin k → Tr K d) :
    Tr.toBT (d := d + 1) (⟨k, ts⟩ : Σ k : Fin (K + 1), (Fin k → Tr K d)) =
      (List.ofFn fun j => (ts j).toBT).foldl BT.graft BT.dot := rfl

theorem toBT_ord : ∀ {d : ℕ} (t : Tr K d), BT.ord (Tr.toBT t) = t.ord
  | 0, t => nomatch t
  | d + 1, ⟨k, ts⟩ => by
    refine (congrArg BT.ord (toBT_mk k ts)).trans ?_
    show _ = (∑ j, (ts j).ord) + 1
    rw [BT.ord_foldl, List.map_ofFn, List.sum_ofFn]
    simp only [Function.comp, toBT_ord, BT.ord]
    omega

theorem toBT_stage (a : ℕ → ℕ → ℝ) : ∀ {d : ℕ} (t : Tr K d) (i : ℕ), BT.stage a (Tr.toBT t) i = t.stage a i
  | 0, t => nomatch t
  | d + 1, ⟨k, ts⟩ => by
    intro i
    refine (congrArg (fun t => BT.stage a t i) (toBT_mk k ts)).trans ?_
    show BT.stage a _ i = ∏ j, ∑ l ∈ Finset.range i, a i l * (ts j).stage a l
    rw [BT.stage_foldl, List.map_ofFn, List.prod_ofFn]
    simp only [Function.comp, toBT_stage, BT.stage, one_mul]

theorem toBT_density : ∀ {d : ℕ} (t : Tr K d), ((BT.ord (Tr.toBT t) * BT.rdens (Tr.toBT t) : ℕ) : ℝ) = t.density
  | 0, t => nomatch t
  | d + 1, ⟨k, ts⟩ => by
    have h1 : BT.rdens ((List.ofFn fun j => (ts j).toBT).foldl BT.graft BT.dot) = ∏ j, (ts j).toBT.ord * (ts j).toBT.rdens := by
      rw [BT.rdens_foldl, List.map_ofFn, List.prod_ofFn]
      simp only [Function.comp, BT.rdens, one_mul]
    have h0 : BT.ord ((List.ofFn fun j => (ts j).toBT).foldl BT.graft BT.dot) = (∑ j, (ts j).ord) + 1 :=
      toBT_ord (d := d + 1) (⟨k, ts⟩ : Σ k : Fin (K + 1), (Fin k → Tr K d))
    have h2 : ((BT.ord ((List.ofFn fun j => (ts j).toBT).foldl BT.graft BT.dot) *
        BT.rdens ((List.ofFn fun j => (ts j).toBT).foldl BT.graft BT.dot) : ℕ) : ℝ) =
        (((∑ j, (ts j).ord) + 1 : ℕ) : ℝ) * ∏ j, (ts j).density := by
      rw [h0, h1, Nat.cast_mul, Nat.cast_prod]
      congr 1
      exact Finset.prod_congr rfl fun j _ => toBT_density (ts j)
    exact h2

/-! ## Integers -/

/-- `Σ r_j w_j` -/
def dotp : List ℤ → List ℤ → ℤ
  | a :: r, x :: w => a * x + dotp r w
  | _, _ => 0

/-- All stages at once, with integer coefficients. -/
def BT.ints (rows : List (List ℤ)) : BT → List ℤ
  | .dot => rows.map fun _ => 1
  | .graft u v => (u.ints rows).zipWith (· * ·) (rows.map fun r => dotp r (v.ints rows))

theorem dotp_eq (r w : List ℤ) (h : r.length ≤ w.length) :
    dotp r w = ∑ l ∈ Finset.range r.length, r.getD l 0 * w.getD l 0 := by
  induction r generalizing w with
  | nil => simp [dotp]
  | cons a r ih =>
    rcases w with _ | ⟨x, w⟩
    · simp at h
    · rw [dotp, ih w (by simpa using h), List.length_cons, Finset.sum_range_succ']
      simp only [List.getD_cons_succ, List.getD_cons_zero]
      ring

theorem ints_length (rows : List (List ℤ)) (t : BT) : (t.ints rows).length = rows.length := by
  induction t with
  | dot => simp [BT.ints]
  | graft u v hu hv => simp [BT.ints, hu]

/-- The integer coefficients are those of the method times `S`. -/
structure Scaled (S : ℝ) (rows : List (List ℤ)) (a : ℕ → ℕ → ℝ) : Prop where
  len : ∀ i (hi : i < rows.length), rows[i].length = i
  coef : ∀ i (hi : i < rows.length), ∀ l < i, ((rows[i].getD l 0 : ℤ) : ℝ) = S * a i l

theorem ints_eq {S : ℝ} {rows : List (List ℤ)} {a : ℕ → ℕ → ℝ} (h : Scaled S rows a) (t : BT) (i : ℕ) (hi : i < rows.length) :
    (((t.ints rows).getD i 0 : ℤ) : ℝ) = S ^ (t.ord - 1) * t.stage a i := by
  induction t generalizing i with
  | dot => simp [BT.ints, BT.stage, BT.ord, hi]
  | graft u v hu hv =>
    have hlu := ints_length rows u
    have hlv := ints_length rows v
    have e : ((BT.graft u v).ints rows).getD i 0 = (u.ints rows).getD i 0 * dotp rows[i] (v.ints rows) := by
      simp [BT.ints, List.getD_eq_getElem?_getD, hi, hlu]
    have hl := h.len i hi
    rw [e, dotp_eq _ _ (by omega), Int.cast_mul, hu i hi, Int.cast_sum, BT.stage, hl]
    have : ∑ l ∈ Finset.range i, ((rows[i].getD l 0 * (v.ints rows).getD l 0 : ℤ) : ℝ) =
        S ^ v.ord * ∑ l ∈ Finset.range i, a i l * v.stage a l := by
      rw [Finset.mul_sum]
      refine Finset.sum_congr rfl fun l hl' => ?_
      have hli := Finset.mem_range.mp hl'
      rw [Int.cast_mul, h.coef i hi l hli, hv l (by omega)]
      obtain ⟨m, hm⟩ := Nat.exists_eq_succ_of_ne_zero (BT.ord_pos v).ne'
      rw [hm, Nat.succ_sub_one, pow_succ]; ring
    rw [this]
    obtain ⟨m, hm⟩ := Nat.exists_eq_succ_of_ne_zero (BT.ord_pos u).ne'
    simp only [BT.ord, hm, Nat.succ_sub_one]
    rw [show m.succ + v.ord - 1 = m + v.ord by omega, pow_add]; ring

/-- The elementary weight with integer coefficients. -/
theorem weight_eq {S : ℝ} {rows : List (List ℤ)} {a : ℕ → ℕ → ℝ} (h : Scaled S rows a) (bz : List ℤ) (b : ℕ → ℝ)
    (hl : bz.length = rows.length) (hb : ∀ i < rows.length, ((bz.getD i 0 : ℤ) : ℝ) = S * b i) {d : ℕ} (t : Tr K d) :
    ((dotp bz (t.toBT.ints rows) : ℤ) : ℝ) = S ^ t.ord * t.weight rows.length a b := by
  rw [dotp_eq _ _ (by rw [ints_length, hl]), Int.cast_sum, Tr.weight, Finset.mul_sum, hl]
  refine Finset.sum_congr rfl fun i hi => ?_
  have hi' := Finset.mem_range.mp hi
  rw [Int.cast_mul, hb i hi', ints_eq h _ i hi', toBT_stage, toBT_ord, Tr.ord, Nat.add_sub_cancel, pow_succ]
  ring

/-! ## All trees up to an order -/

/-- From the trees of orders `n, …, 1`, those of order `n + 1`. -/
def nextLevel (p : List (List BT)) : List BT :=
  (p.zipWith (fun us vs => us.flatMap fun u => vs.map fun v => BT.graft u v) p.reverse).flatten

/-- The trees of orders `n, …, 1`. -/
def levels : ℕ → List (List BT)
  | 0 => []
  | 1 => [[BT.dot]]
  | n + 2 => nextLevel (levels (n + 1)) :: levels (n + 1)

theorem levels_length (n : ℕ) : (levels n).length = n := by
  induction n with
  | zero => rfl
  | succ n ih =>
    rcases n with _ | n
    · rfl
    · simp [levels, ih]

theorem levels_get (n m : ℕ) (h0 : 0 < m) (hm : m ≤ n) :
    (levels n)[n - m]? = some ((levels m).headD []) := by
  induction n with
  | zero => omega
  | succ n ih =>
    rcases n with _ | n
    · obtain rfl : m = 1 := by omega
      rfl
    · by_cases h : m = n + 2
      · subst h; simp [levels]
      · have := ih (by omega)
        rw [show n + 1 + 1 - m = (n + 1 - m) + 1 by omega, show levels (n + 1 + 1) = nextLevel (levels (n + 1)) :: levels (n + 1) from rfl,
          List.getElem?_cons_succ]
        exact this

theorem mem_levels (t : BT) : t ∈ (levels t.ord).headD [] := by
  induction t with
  | dot => simp [levels, BT.ord]
  | graft u v hu hv =>
    have pu := BT.ord_pos u
    have pv := BT.ord_pos v
    obtain ⟨n, hn⟩ : ∃ n, u.ord + v.ord = n + 2 := ⟨u.ord + v.ord - 2, by omega⟩
    simp only [BT.ord, hn]
    show _ ∈ nextLevel (levels (n + 1))
    unfold nextLevel
    have h1 := levels_get (n + 1) u.ord pu (by omega)
    have h2 := levels_get (n + 1) v.ord pv (by omega)
    rw [List.mem_flatten]
    refine ⟨((levels u.ord).headD []).flatMap fun u => ((levels v.ord).headD []).map fun v => BT.graft u v, ?_, ?_⟩
    · rw [List.mem_iff_getElem?]
      refine ⟨n + 1 - u.ord, ?_⟩
      rw [List.getElem?_zipWith, h1]
      have h3 : (levels (n + 1)).reverse[n + 1 - u.ord]? = some ((levels v.ord).headD []) := by
        rw [List.getElem?_reverse (by rw [levels_length]; omega), levels_length,
          show n + 1 - 1 - (n + 1 - u.ord) = n + 1 - v.ord by omega]
        exact h2
      rw [h3]
    · rw [List.mem_flatMap]
      exact ⟨u, hu, List.mem_map.mpr ⟨v, hv, rfl⟩⟩

/-- A test passed by all trees of order at most `n`. -/
theorem all_levels {n : ℕ} {q : BT → Bool} (h : (levels n).all (fun l => l.all q) = true) (t : BT) (ht : t.ord ≤ n) : q t = true := by
  have h1 := levels_get n t.ord (BT.ord_pos t) ht
  have h2 : (levels t.ord).headD [] ∈ levels n := List.mem_of_getElem? h1
  rw [List.all_eq_true] at h
  have h3 := h _ h2
  rw [List.all_eq_true] at h3
  exact h3 t (mem_levels t)

end PyNLO.RK
