import Verif.Model.Prior
import Verif.Lemmas.Float
import Mathlib.Tactic.NormNum

/-! # C44-C45: the prior -/

namespace Poco
open F

variable {d : ℕ}

theorem zipWith_add_map (f g : Pt d → F) (x : List (Pt d)) :
    List.zipWith (· + ·) (x.map f) (x.map g) = x.map fun r => f r + g r := by
  induction x with
  | nil => rfl
  | cons a x ih => simp only [List.map_cons, List.zipWith_cons_cons, ih]

theorem prior_foldl (p : Prior d) (x : List (Pt d)) (is : List (Fin d)) (acc : Pt d → F) :
    is.foldl (fun logp i => List.zipWith (· + ·) logp (x.map fun row => (p.dists i).logpdf (row i))) (x.map acc)
      = x.map fun r => acc r + F.sum (is.map fun i => (p.dists i).logpdf (r i)) := by
  induction is generalizing acc with
  | nil =>
    simp only [List.foldl_nil, List.map_nil, F.sum_nil]
    apply List.map_congr_left
    intro r _
    exact (add_zero (acc r)).symm
  | cons i is ih =>
    simp only [List.foldl_cons]
    rw [zipWith_add_map, ih]
    apply List.map_congr_left
    intro r _
    simp only [List.map_cons, F.sum_cons, add_assoc]

theorem prior_logpdf_eq (p : Prior d) (x : List (Pt d)) :
    p.logpdf x = x.map fun r => F.sum (List.ofFn fun i => (p.dists i).logpdf (r i)) := by
  unfold Prior.logpdf
  have : List.replicate x.length (fin 0) = x.map fun _ => fin 0 := by simp
  rw [this, prior_foldl]
  apply List.map_congr_left
  intro r _
  rw [List.ofFn_eq_map]
  exact zero_add _

theorem sum_ninf {l : List F} (h : ninf ∈ l) (hb : ∀ a ∈ l, a ≠ nan ∧ a ≠ pinf) : F.sum l = ninf := by
  have key : ∀ l : List F, (∀ a ∈ l, a ≠ nan ∧ a ≠ pinf) →
      (F.sum l = ninf ∨ (ninf ∉ l ∧ ∃ r, F.sum l = fin r)) := by
    intro l
    induction l with
    | nil => intro _; right; exact ⟨by simp, 0, rfl⟩
    | cons a l ih =>
      intro hb
      have ha := hb a List.mem_cons_self
      rw [F.sum_cons]
      rcases ih fun b hb' => hb b (List.mem_cons_of_mem _ hb') with h | ⟨h1, r, h2⟩
      · left
        rw [h]
        cases a with
        | nan => exact absurd rfl ha.1
        | pinf => exact absurd rfl ha.2
        | ninf => rfl
        | fin r => rfl
      · rw [h2]
        cases a with
        | nan => exact absurd rfl ha.1
        | pinf => exact absurd rfl ha.2
        | ninf => left; rfl
        | fin r => right; exact ⟨by simp [h1], _, rfl⟩
  rcases key l hb with h' | ⟨h', -⟩
  · exact h'
  · exact absurd h h'

/-- **C44.** `logpdf` has one entry per row, entry `j` is the sum over dimensions of the one-dimensional log-densities
of row `j` alone, and it is `-inf` if some coordinate has density zero and none is NaN or `+inf`. -/
theorem C44_prior_logpdf (p : Prior d) (x : List (Pt d)) :
    (p.logpdf x).length = x.length ∧
    ∀ (j : ℕ) (hj : j < x.length),
      (p.logpdf x)[j]? = some (F.sum (List.ofFn fun i => (p.dists i).logpdf (x[j] i))) ∧
      ((∃ i, (p.dists i).logpdf (x[j] i) = ninf) →
        (∀ i, (p.dists i).logpdf (x[j] i) ≠ nan ∧ (p.dists i).logpdf (x[j] i) ≠ pinf) →
        (p.logpdf x)[j]? = some ninf) := by
  rw [prior_logpdf_eq]
  refine ⟨by simp, fun j hj => ?_⟩
  have e : (x.map fun r => F.sum (List.ofFn fun i => (p.dists i).logpdf (r i)))[j]?
      = some (F.sum (List.ofFn fun i => (p.dists i).logpdf (x[j] i))) := by
    simp [List.getElem?_map, List.getElem?_eq_getElem hj]
  refine ⟨e, ?_⟩
  rintro ⟨i, hi⟩ hb
  rw [e, sum_ninf]
  · rw [List.mem_ofFn]; exact ⟨i, hi⟩
  · intro a ha
    rw [List.mem_ofFn] at ha
    obtain ⟨k, rfl⟩ := ha
    exact hb k

/-- The finite case of C44: the real sum. -/
theorem C44_prior_logpdf_finite (p : Prior d) (lp : Fin d → ℝ) (row : Pt d)
    (h : ∀ i, (p.dists i).logpdf (row i) = fin (lp i)) : p.logpdf [row] = [fin (∑ i, lp i)] := by
  rw [prior_logpdf_eq]
  simp only [List.map_cons, List.map_nil, h]
  have : (List.ofFn fun i => fin (lp i)) = (List.ofFn lp).map fin := by simp [List.map_ofFn, Function.comp_def]
  rw [this, sum_fin, List.sum_ofFn]

/-- **C45.** For at least one distribution whose `rvs(n)` gives `n` values: `rvs(size)` has `size` rows, entry (j, i) is
the j-th draw of distribution i; `bounds` row i is the support of distribution i; `dim` counts the distributions. -/
theorem C45_prior_layout (p : Prior d) (hd : 0 < d) (draw : Fin d → ℕ → List F)
    (hdraw : ∀ i n, (draw i n).length = n) (size : ℕ) :
    (p.rvs draw size).length = size ∧
    (∀ (j : ℕ) (hj : j < size), ∃ row, (p.rvs draw size)[j]? = some row ∧
      ∀ i, (draw i size)[j]? = some (row i)) ∧
    p.bounds.length = d ∧ (∀ i : Fin d, p.bounds[(i : ℕ)]? = some (p.dists i).support) ∧ p.dim = d := by
  obtain ⟨n, rfl⟩ : ∃ n, d = n + 1 := ⟨d - 1, by omega⟩
  have e : p.rvs draw size = (List.range size).map fun j i => ((draw i size)[j]?).getD nan := by
    simp only [Prior.rvs, transposeCols, List.finRange_succ, List.head?_cons, hdraw]
  refine ⟨by simp [e], ?_, by simp [Prior.bounds], ?_, by simp [Prior.dim]⟩
  · intro j hj
    refine ⟨fun i => ((draw i size)[j]?).getD nan, ?_, fun i => ?_⟩
    · rw [e]; simp [hj]
    · have hl : j < (draw i size).length := by rw [hdraw]; exact hj
      simp [List.getElem?_eq_getElem hl]
  · intro i
    simp only [Prior.bounds, List.getElem?_map, Option.map_eq_some_iff]
    exact ⟨i, by rw [List.getElem?_eq_getElem (by simpa using i.2)]; simp, rfl⟩

/-- Non-vacuity: a half-line density and a constant one; a point off the half-line has log-density `-inf`. -/
noncomputable example : ∃ (p : Prior 2) (x : Pt 2), (∃ i, (p.dists i).logpdf (x i) = ninf) ∧
    (∀ i, (p.dists i).logpdf (x i) ≠ nan ∧ (p.dists i).logpdf (x i) ≠ pinf) := by
  refine ⟨⟨![⟨fun a => if a < fin 0 then ninf else -a, (fin 0, pinf)⟩, ⟨fun _ => fin 0, (fin 0, fin 1)⟩]⟩,
    ![fin (-1), fin 0], ⟨0, by simp⟩, ?_⟩
  intro i
  fin_cases i <;> simp

example : ∃ draw : Fin 2 → ℕ → List F, ∀ i n, (draw i n).length = n :=
  ⟨fun i n => (List.range n).map fun j => fin (j + i), by simp⟩

end Poco
