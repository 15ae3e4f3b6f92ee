import Verif.Lemmas.SplitStep
import Verif.Lemmas.Ssfm

/-!
# The accepted steps of an integration and the field they produce
-/

namespace PyNLO.Ssfm

open Complex Set
open scoped ContDiff

variable {n : ℕ}

/-- length covered by a list of double steps -/
def span (l : List ℝ) : ℝ := (l.map fun h => 2 * h).sum

@[simp] theorem span_nil : span [] = 0 := rfl

@[simp] theorem span_append (l m : List ℝ) : span (l ++ m) = span l + span m := by simp [span]

@[simp] theorem span_cons (h : ℝ) (l : List ℝ) : span (h :: l) = 2 * h + span l := by simp [span]

theorem span_nonneg {l : List ℝ} (h : ∀ x ∈ l, 0 ≤ x) : 0 ≤ span l := by
  refine List.sum_nonneg fun x hx => ?_
  obtain ⟨y, hy, rfl⟩ := List.mem_map.1 hx
  linarith [h y hy]

theorem le_span {l : List ℝ} (h : ∀ x ∈ l, 0 ≤ x) {y : ℝ} (hy : y ∈ l) : 2 * y ≤ span l := by
  induction l with
  | nil => simp at hy
  | cons x t ih =>
    rw [span_cons]
    have ht := span_nonneg fun z hz => h z (List.mem_cons_of_mem x hz)
    have hx := h x List.mem_cons_self
    rcases List.mem_cons.1 hy with rfl | hy'
    · linarith
    · linarith [ih (fun z hz => h z (List.mem_cons_of_mem x hz)) hy']

/-- field after a list of accepted steps, each the extrapolation of two steps `h` against one step `2h` -/
noncomputable def follow (eta : ℝ) (adv : ℝ → (Fin n → ℂ) → Fin n → ℂ) (A : Fin n → ℂ) (l : List ℝ) : Fin n → ℂ :=
  l.foldl (fun A h => richardson eta (adv h (adv h A)) (adv (2 * h) A)) A

namespace Spec

variable {c : Cfg} {eta : ℝ} {adv : ℝ → (Fin n → ℂ) → Fin n → ℂ} {s : St n}

theorem run_log (c : Cfg) (eta : ℝ) (adv : ℝ → (Fin n → ℂ) → Fin n → ℂ) (s : St n) (k : ℕ) :
    (run c eta adv s k).A = follow eta adv s.A ((ctrlRun c (fun j => .val (stErr adv (run c eta adv s j))) s.ctrl k).2.map Prod.fst) ∧
    (run c eta adv s k).iter = s.iter + (ctrlRun c (fun j => .val (stErr adv (run c eta adv s j))) s.ctrl k).2.length := by
  induction k with
  | zero => exact ⟨rfl, rfl⟩
  | succ k ih =>
    have hc := run_ctrl c eta adv s k
    by_cases h : (run c eta adv s k).ctrl.dist > 0
    · rw [run_succ_pos h]
      rw [hc] at h
      rw [ctrlRun_succ_pos h]
      unfold body
      rw [hc]
      rcases ctrlBody c (ctrlRun c (fun j => .val (stErr adv (run c eta adv s j))) s.ctrl k).1 (.val (stErr adv (run c eta adv s k))) with ⟨ok, ctrl⟩
      cases ok
      · exact ih
      · refine ⟨?_, ?_⟩
        · simp only [if_true, List.map_append, List.map_cons, List.map_nil]
          unfold follow
          rw [List.foldl_append, ih.1]
          rfl
        · simp only [if_true, List.length_append, List.length_cons, List.length_nil, ih.2]
          omega
    · rw [run_succ_neg h]
      rw [hc] at h
      rw [ctrlRun_succ_neg h]
      exact ih

end Spec

/-- accepted steps are positive -/
theorem log_pos {c : Cfg} (hc : c.Ok) {dz deltaZ : ℝ} (hdz : 0 < dz) (hd : 0 < deltaZ) (err : ℕ → Err) (k : ℕ) :
    ∀ x ∈ (ctrlRun c err (ctrlStart dz deltaZ) k).2, 0 < x.1 := by
  obtain ⟨m, hm0, hm, hinv⟩ := Inv.start hdz hd hc
  induction k with
  | zero => intro x hx; simp [ctrlRun] at hx
  | succ k ih =>
    by_cases h : (ctrlRun c err (ctrlStart dz deltaZ) k).1.dist > 0
    · rw [ctrlRun_succ_pos h]
      intro x hx
      simp only at hx
      split_ifs at hx with h1
      · rcases List.mem_append.1 hx with hx | hx
        · exact ih x hx
        · rw [List.mem_singleton] at hx
          rw [hx]
          exact lt_of_lt_of_le hm0 (hinv.run hc hm hm0 err k).lower
      · exact ih x hx
    · rw [ctrlRun_succ_neg h]
      exact ih

/-- the error estimates of the iterations of the loop -/
noncomputable def estimates (p : Params n) (δ dir : ℝ) (f : Field n) (j : ℕ) : Err :=
  .val (Spec.stErr (Spec.adv p dir) (Spec.run p.cfg p.eta (Spec.adv p dir) ⟨f.A, f.iter, ctrlStart f.dz δ⟩ j))

/-- Integrating over `δ` from `f` gives `f'` and accepts the steps `l`: the control loop, driven by the error estimates, returns with
that log, and the field is what these steps produce. -/
structure Accepts (p : Params n) (δ dir : ℝ) (f : Field n) (l : List ℝ) (f' : Field n) : Prop where
  returns : integrate p δ dir f = some f'
  log : ∃ s lg, CtrlReturns p.cfg (estimates p δ dir f) f.dz δ s lg ∧ l = lg.map Prod.fst ∧ f'.dz = ctrlExit s
  field : f'.A = follow p.eta (Spec.adv p dir) f.A l
  iter : f'.iter = f.iter + l.length
  pos : ∀ h ∈ l, 0 < h
  covers : δ ≤ span l

theorem covered_eq_span (lg : List (ℝ × Err)) : covered lg = span (lg.map Prod.fst) := by
  unfold covered span
  rw [List.map_map]
  rfl

theorem accepts_exists {p : Params n} (hp : p.Ok) {δ : ℝ} (hδ : 0 < δ) (dir : ℝ) {f : Field n} (hdz : 0 < f.dz) :
    ∃ f' l, Accepts p δ dir f l f' := by
  obtain ⟨f', e, k, hk, hA, hi, hd⟩ := integrate_spec hp δ dir hdz
  set s0 : Spec.St n := ⟨f.A, f.iter, ctrlStart f.dz δ⟩ with hs0
  set err : ℕ → Err := estimates p δ dir f with herr
  have hlog := Spec.run_log p.cfg p.eta (Spec.adv p dir) s0 k
  have hctrl := Spec.run_ctrl p.cfg p.eta (Spec.adv p dir) s0 k
  have hfin : ¬ (ctrlRun p.cfg err (ctrlStart f.dz δ) k).1.dist > 0 := by
    rw [hctrl] at hk
    exact hk
  have hret : CtrlReturns p.cfg err f.dz δ (ctrlRun p.cfg err (ctrlStart f.dz δ) k).1 (ctrlRun p.cfg err (ctrlStart f.dz δ) k).2 :=
    ⟨k, rfl, hfin⟩
  refine ⟨f', (ctrlRun p.cfg err (ctrlStart f.dz δ) k).2.map Prod.fst, e, ⟨_, _, hret, rfl, ?_⟩, ?_, ?_, ?_, ?_⟩
  · rw [← hd, hctrl]
    rfl
  · rw [← hA, hlog.1]
    rfl
  · rw [← hi, hlog.2, List.length_map]
    rfl
  · intro h hh
    obtain ⟨x, hx, rfl⟩ := List.mem_map.1 hh
    exact log_pos hp.cfg hdz hδ err k x hx
  · rw [← covered_eq_span]
    exact (C38_distance_partial hp.cfg hdz hδ hret).1

/-- the stored step stays positive -/
theorem Accepts.field_pos {p : Params n} (hp : p.Ok) {δ dir : ℝ} (hδ : 0 < δ) {f f' : Field n} {l : List ℝ} (h : Accepts p δ dir f l f')
    (hdz : 0 < f.dz) : 0 < f'.dz := by
  obtain ⟨s, lg, hr, -, e⟩ := h.log
  rw [e]
  exact exit_pos hp.cfg hdz hδ hr

/-- all segments at once -/
theorem accepts_all {p : Params n} (hp : p.Ok) {δ : ℝ} (hδ : 0 < δ) (dir : ℝ) {N : ℕ} {S : ℕ → Field n} (h0 : 0 < (S 0).dz)
    (hS : ∀ i < N, integrate p δ dir (S i) = some (S (i + 1))) : ∃ l : ℕ → List ℝ, ∀ i < N, Accepts p δ dir (S i) (l i) (S (i + 1)) := by
  have key : ∀ i ≤ N, 0 < (S i).dz := by
    intro i
    induction i with
    | zero => exact fun _ => h0
    | succ i ih =>
      intro hi
      have hd := ih (by omega)
      obtain ⟨f', l, ha⟩ := accepts_exists hp hδ dir hd
      have := ha.returns
      rw [hS i (by omega)] at this
      obtain rfl := Option.some.inj this
      exact ha.field_pos hp hδ hd
  have hex : ∀ i, ∃ l, i < N → Accepts p δ dir (S i) l (S (i + 1)) := by
    intro i
    by_cases hi : i < N
    · obtain ⟨f', l, ha⟩ := accepts_exists hp hδ dir (key i hi.le)
      have := ha.returns
      rw [hS i hi] at this
      obtain rfl := Option.some.inj this
      exact ⟨l, fun _ => ha⟩
    · exact ⟨[], fun h => absurd h hi⟩
  choose l hl using hex
  exact ⟨l, hl⟩

/-- accepted steps of the first `i` segments -/
def upTo (l : ℕ → List ℝ) : ℕ → List ℝ
  | 0 => []
  | i + 1 => upTo l i ++ l i

theorem span_upTo (l : ℕ → List ℝ) (i : ℕ) : span (upTo l i) = ∑ j ∈ Finset.range i, span (l j) := by
  induction i with
  | zero => rfl
  | succ i ih => rw [upTo, span_append, ih, Finset.sum_range_succ]

theorem follow_append (eta : ℝ) (adv : ℝ → (Fin n → ℂ) → Fin n → ℂ) (A : Fin n → ℂ) (l m : List ℝ) :
    follow eta adv A (l ++ m) = follow eta adv (follow eta adv A l) m := List.foldl_append

theorem follow_upTo {p : Params n} {δ dir : ℝ} {N : ℕ} {S : ℕ → Field n} {l : ℕ → List ℝ}
    (h : ∀ i < N, Accepts p δ dir (S i) (l i) (S (i + 1))) : ∀ i ≤ N, (S i).A = follow p.eta (Spec.adv p dir) (S 0).A (upTo l i) := by
  intro i
  induction i with
  | zero => exact fun _ => rfl
  | succ i ih =>
    intro hi
    rw [(h i (by omega)).field, ih (by omega), upTo, follow_append]

theorem mem_upTo {l : ℕ → List ℝ} {i : ℕ} {x : ℝ} (hx : x ∈ upTo l i) : ∃ j < i, x ∈ l j := by
  induction i with
  | zero => simp [upTo] at hx
  | succ i ih =>
    rcases List.mem_append.1 hx with h | h
    · obtain ⟨j, hj, hxj⟩ := ih h
      exact ⟨j, by omega, hxj⟩
    · exact ⟨i, by omega, h⟩

/-- the convergence theorem for lists of steps -/
theorem converges_list {Ψ : ℝ → (Fin n → ℂ) → Fin n → ℂ} {Y : ℝ → Fin n → ℂ} {L C K R h0 : ℝ} {m : ℕ} (hL : 0 ≤ L) (hC : 0 ≤ C) (hK : 0 ≤ K)
    (h0pos : 0 < h0) (cons : ∀ z ∈ Icc 0 L, ∀ h ∈ Icc 0 h0, ‖Ψ h (Y z) - Y (z + 2 * h)‖ ≤ C * h ^ (m + 2))
    (stab : ∀ h ∈ Icc 0 h0, ∀ A ∈ Metric.closedBall (0 : Fin n → ℂ) (R + 1), ∀ B ∈ Metric.closedBall (0 : Fin n → ℂ) (R + 1),
      ‖Ψ h A - Ψ h B‖ ≤ (1 + K * h) * ‖A - B‖) (hY : ∀ z ∈ Icc 0 L, ‖Y z‖ ≤ R) :
    ∃ h1 > 0, h1 ≤ h0 ∧ ∀ hm ∈ Ioc 0 h1, ∀ l : List ℝ, (∀ h ∈ l, 0 < h ∧ h ≤ hm) → span l ≤ L →
      ‖l.foldl (fun A h => Ψ h A) (Y 0) - Y (span l)‖ ≤ C * L * Real.exp (K * L) * hm ^ (m + 1) := by
  obtain ⟨h1, h1pos, h1le, -, hconv⟩ := OneStep.converges (Ψ := Ψ) (Y := Y) (m := m) hL hC hK h0pos (fun z hz h hh _ => cons z hz h hh) stab hY
  refine ⟨h1, h1pos, h1le, fun hm hhm l hl hspan => ?_⟩
  have hsum : ∀ k ≤ l.length, ∑ i ∈ Finset.range k, 2 * l.getD i 0 = span (l.take k) := by
    intro k
    induction k with
    | zero => intro _; simp
    | succ k ih =>
      intro hk
      rw [Finset.sum_range_succ, ih (by omega), List.take_add_one, span_append]
      congr 1
      simp [List.getElem?_eq_getElem (show k < l.length by omega), List.getD]
  have h := hconv hm hhm (fun i => l.getD i 0) (fun i => (l.take i).foldl (fun A h => Ψ h A) (Y 0)) l.length rfl (fun i hi => by
      have : l.getD i 0 = l[i] := by simp [List.getD, List.getElem?_eq_getElem hi]
      simp only [this]
      have := hl l[i] (List.getElem_mem hi)
      exact ⟨this.1.le, this.2⟩) (fun i hi => by
      have : l.getD i 0 = l[i] := by simp [List.getD, List.getElem?_eq_getElem hi]
      simp only [this]
      rw [List.take_add_one, List.getElem?_eq_getElem hi, Option.toList_some, List.foldl_append]
      rfl) (by rw [hsum _ le_rfl, List.take_length]; exact hspan)
  rw [hsum _ le_rfl, List.take_length] at h
  exact h

/-- The field after a list of accepted steps is the solution at the distance they cover, up to a power of the longest of them.  The
constants depend on the smooth step and the solution only. -/
theorem follow_close {φ : ℝ × (Fin n → ℂ) → Fin n → ℂ} (hφ : ContDiff ℝ ∞ φ) (h0 : ∀ A, φ (0, A) = A) {α β : ℝ} (hαβ : α - β = 1)
    {L : ℝ} (hL : 0 ≤ L) {Y : ℝ → Fin n → ℂ} {m : ℕ}
    (hcons : ∃ C h0, 0 ≤ C ∧ 0 < h0 ∧ h0 ≤ 1 ∧ ∀ z ∈ Icc 0 L, ∀ h ∈ Icc 0 h0,
      ‖OneStep.double φ α β h (Y z) - Y (z + 2 * h)‖ ≤ C * h ^ (m + 2)) {R : ℝ} (hR : ∀ z ∈ Icc 0 L, ‖Y z‖ ≤ R) :
    ∃ h1 > 0, ∃ C, 0 ≤ C ∧ ∀ eta : ℝ, (∀ x y : Fin n → ℂ, richardson eta x y = α • x - β • y) → ∀ hm ∈ Ioc 0 h1, ∀ l : List ℝ,
      (∀ h ∈ l, 0 < h ∧ h ≤ hm) → span l ≤ L → ‖follow eta (fun h A => φ (h, A)) (Y 0) l - Y (span l)‖ ≤ C * hm ^ (m + 1) := by
  obtain ⟨C1, h00, hC1, h0pos, h0le, cons⟩ := hcons
  obtain ⟨K, hK, stab⟩ := OneStep.stable (OneStep.double_contDiff hφ α β) (fun B => OneStep.double_zero h0 hαβ B) (R + 1)
  obtain ⟨h1, h1pos, -, hconv⟩ := converges_list (Ψ := fun h B => OneStep.double φ α β h B) (Y := Y) (m := m) hL hC1 hK h0pos cons
    (fun h hh => stab h ⟨hh.1, hh.2.trans h0le⟩) hR
  refine ⟨h1, h1pos, C1 * L * Real.exp (K * L), by positivity, fun eta hr hm hhm l hl hspan => ?_⟩
  have e : follow eta (fun h A => φ (h, A)) (Y 0) l = l.foldl (fun A h => OneStep.double φ α β h A) (Y 0) := by
    unfold follow
    congr 1
    funext A h
    rw [hr]
    rfl
  rw [e]
  exact hconv hm hhm l hl hspan

end PyNLO.Ssfm
