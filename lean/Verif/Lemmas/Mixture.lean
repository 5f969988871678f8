import Verif.Lemmas.Weights
import Verif.Model.Particles
import Verif.Spec.Mixture
import Mathlib.Tactic.Positivity
import Mathlib.Tactic.FieldSimp

/-! `compute_logw_and_logz` on finite histories. -/

namespace Poco
open F Spec

variable {d : ℕ} {B : Type}

/-- The three columns the weight computation reads hold the stages `h`. -/
def Holds (past : Cols d B List) (h : List Stage) : Prop :=
  past.logl = h.map (fun s => s.logl.map fin) ∧ past.beta = h.map (fun s => fin s.beta) ∧
    past.logz = h.map (fun s => fin s.logz)

theorem sum_map_pos {α : Type*} (l : List α) (f : α → ℝ) (hl : l ≠ []) (hf : ∀ x ∈ l, 0 < f x) : 0 < (l.map f).sum := by
  cases l with
  | nil => exact absurd rfl hl
  | cons a l =>
    have h1 := hf a (by simp)
    have h2 : 0 ≤ (l.map f).sum := List.sum_nonneg (by
      simp only [List.mem_map]; rintro x ⟨y, hy, rfl⟩; exact (hf y (by simp [hy])).le)
    simp only [List.map_cons, List.sum_cons]; linarith

theorem length_pos_real {α : Type*} {l : List α} (h : l ≠ []) : (0 : ℝ) < l.length := by
  exact_mod_cast List.length_pos_iff.mpr h

theorem mixture_pos (h : List Stage) (hne : h ≠ []) (l : ℝ) : 0 < mixture h l :=
  div_pos (sum_map_pos h _ hne (fun _ _ => by positivity)) (length_pos_real hne)

theorem weight_pos (h : List Stage) (hne : h ≠ []) (β l : ℝ) : 0 < weight h β l :=
  div_pos (Real.exp_pos _) (mixture_pos h hne l)

theorem Spec.Rect.allLogl_ne {h : List Stage} {n : ℕ} (hr : Rect h n) : allLogl h ≠ [] := by
  obtain ⟨h1, h2, h3⟩ := hr
  cases h with
  | nil => exact absurd rfl h1
  | cons s t =>
    have := h3 s (by simp)
    intro hc
    simp only [allLogl, List.flatMap_cons, List.append_eq_nil_iff] at hc
    rw [hc.1] at this; simp at this; omega

theorem Spec.Rect.length_allLogl {h : List Stage} {n : ℕ} (hr : Rect h n) : (allLogl h).length = h.length * n := by
  obtain ⟨-, -, h3⟩ := hr
  clear * - h3
  induction h with
  | nil => simp [allLogl]
  | cons s t ih =>
    have := ih (fun s hs => h3 s (by simp [hs]))
    simp only [allLogl, List.flatMap_cons, List.length_append, List.length_cons] at *
    rw [this, h3 s (by simp)]; ring

theorem totalWeight_pos {h : List Stage} {n : ℕ} (hr : Rect h n) (β : ℝ) : 0 < totalWeight h β :=
  sum_map_pos _ _ hr.allLogl_ne (fun l _ => weight_pos h hr.1 β l)

theorem mixDenom_fin (h : List Stage) (hne : h ≠ []) (l : ℝ) :
    mixDenom (h.map fun s => fin s.beta) (h.map fun s => fin s.logz) (fin l) = fin (Real.log (mixture h l)) := by
  unfold mixDenom
  have e1 : (((h.map fun s => fin s.beta).zip (h.map fun s => fin s.logz)).map fun bz => fin l * bz.1 - bz.2)
      = (h.map fun s => l * s.beta - s.logz).map fin := by
    rw [List.zip_map']
    simp
  rw [e1, lse_fin _ (by simpa using hne), F.ofNat, List.length_map, log_fin _ (length_pos_real hne), fin_sub]
  congr 1
  have hp : 0 < (h.map fun s => Real.exp (l * s.beta) / Real.exp s.logz).sum :=
    sum_map_pos h _ hne (fun _ _ => by positivity)
  unfold mixture
  rw [Real.log_div hp.ne' (length_pos_real hne).ne']
  simp [Function.comp_def, Real.exp_sub]

theorem raw_logw_fin (h : List Stage) (hne : h ≠ []) (β l : ℝ) :
    fin l * fin β - mixDenom (h.map fun s => fin s.beta) (h.map fun s => fin s.logz) (fin l)
      = fin (Real.log (weight h β l)) := by
  rw [mixDenom_fin h hne, fin_mul, fin_sub]
  congr 1
  unfold weight
  rw [Real.log_div (Real.exp_ne_zero _) (mixture_pos h hne l).ne', Real.log_exp]

theorem flatten_fin (h : List Stage) : (h.map fun s => s.logl.map fin).flatten = (allLogl h).map fin := by
  unfold allLogl
  induction h with
  | nil => rfl
  | cons s t ih => simp [ih]

theorem computeLogwLogz_fin (past : Cols d B List) (h : List Stage) (n : ℕ) (hr : Rect h n) (hh : Holds past h)
    (β : ℝ) (norm : Bool) :
    computeLogwLogz past (fin β) norm = .ok
      ((allLogl h).map (fun l => fin (Real.log (weight h β l) - if norm then Real.log (totalWeight h β) else 0)),
        fin (Real.log (totalWeight h β / (allLogl h).length))) := by
  obtain ⟨h1, h2, h3⟩ := hh
  have hne := hr.1
  have hna := hr.allLogl_ne
  have hrag : (past.logl.any fun row => decide (row.length ≠ (past.logl.headD []).length)) = false := by
    rw [h1, List.any_eq_false]
    intro row hrow
    obtain ⟨s, hs, rfl⟩ := List.mem_map.mp hrow
    cases h with
    | nil => exact absurd rfl hne
    | cons s0 t =>
      simp [hr.2.2 s hs, hr.2.2 s0 (by simp)]
  unfold computeLogwLogz
  rw [hrag, if_neg (by simp), if_neg (by rw [h2, h3]; simp), if_neg (by rw [h1]; simpa using hne)]
  simp only [h1, h2, h3, flatten_fin]
  have e1 : ((allLogl h).map fin).map (fun l => l * fin β -
      mixDenom (h.map fun s => fin s.beta) (h.map fun s => fin s.logz) l)
      = ((allLogl h).map fun l => Real.log (weight h β l)).map fin := by
    simp only [List.map_map]
    apply List.map_congr_left
    intro l _
    exact raw_logw_fin h hne β l
  rw [e1]
  have e2 : lse (((allLogl h).map fun l => Real.log (weight h β l)).map fin) = fin (Real.log (totalWeight h β)) := by
    rw [lse_fin _ (by simpa using hna), List.map_map]
    congr 3
    apply List.map_congr_left
    intro l _
    exact Real.exp_log (weight_pos h hne β l)
  rw [e2]
  congr 1
  refine Prod.ext ?_ ?_
  · cases norm <;> simp
  · simp only [List.length_map, F.ofNat]
    rw [log_fin _ (length_pos_real hna), fin_sub, Real.log_div (totalWeight_pos hr β).ne' (length_pos_real hna).ne']

end Poco
