import Verif.Props.Trim

/-! Trimming a list with two different weights drops all the light ones. -/

namespace Poco
open F Spec

theorem perm_two (xs : List (Fin 2)) : xs.Perm (List.replicate (xs.count 0) 0 ++ List.replicate (xs.count 1) 1) := by
  induction xs with
  | nil => simp
  | cons y xs ih =>
    fin_cases y
    · simp only [Fin.zero_eta, List.count_cons_self, List.replicate_succ, List.cons_append]
      rw [List.count_cons_of_ne (by decide)]
      exact ih.cons _
    · simp only [Fin.mk_one, List.count_cons_self, List.replicate_succ]
      rw [List.count_cons_of_ne (by decide)]
      exact (ih.cons 1).trans List.perm_middle.symm

theorem sort_two (xs : List (Fin 2)) (g : Fin 2 → ℝ) (hg : g 0 ≤ g 1) :
    (xs.map g).mergeSort (fun x y => decide (x ≤ y)) = List.replicate (xs.count 0) (g 0) ++ List.replicate (xs.count 1) (g 1) := by
  have h1 : ((xs.map g).mergeSort (fun x y => decide (x ≤ y))).Perm (List.replicate (xs.count 0) (g 0) ++ List.replicate (xs.count 1) (g 1)) := by
    refine (List.mergeSort_perm _ _).trans ?_
    have := (perm_two xs).map g
    simpa using this
  refine h1.eq_of_pairwise (le := fun x y : ℝ => x ≤ y) (fun a b _ _ h1 h2 => le_antisymm h1 h2) ?_ ?_
  · have := List.pairwise_mergeSort (le := fun x y : ℝ => decide (x ≤ y)) (fun a b c h1 h2 => by simp at *; linarith)
      (fun a b => by simpa using le_total a b) (xs.map g)
    simpa using this
  · rw [List.pairwise_append]
    refine ⟨by simp [List.pairwise_replicate], by simp [List.pairwise_replicate], fun a ha b hb => ?_⟩
    rw [List.eq_of_mem_replicate ha, List.eq_of_mem_replicate hb]
    exact hg

theorem count_two (xs : List (Fin 2)) : xs.count 0 + xs.count 1 = xs.length := by
  have := (perm_two xs).length_eq
  simpa using this.symm

theorem percentile_two (xs : List (Fin 2)) (g : Fin 2 → ℝ) (hg : g 0 ≤ g 1) (p : ℝ) (hp0 : 0 ≤ p) (hp : p ≤ 100) (hl : 0 < xs.length)
    (h : (xs.count 0 : ℝ) ≤ ((xs.length : ℝ) - 1) * (p / 100)) : Spec.percentile (xs.map g) p = g 1 := by
  have hc := count_two xs
  have hlr : (1 : ℝ) ≤ xs.length := by exact_mod_cast hl
  simp only [Spec.percentile, sort_two xs g hg, List.length_map]
  set y := ((xs.length : ℝ) - 1) * (p / 100) with hy
  have hy0 : 0 ≤ y := mul_nonneg (by linarith) (by positivity)
  have hfl : xs.count 0 ≤ ⌊y⌋₊ := Nat.le_floor h
  have hub : ⌊y⌋₊ ≤ xs.length - 1 := by
    apply Nat.floor_le_of_le
    rw [Nat.cast_sub hl, hy]
    push_cast
    exact mul_le_of_le_one_right (by linarith) (by linarith)
  have hget : ∀ i, xs.count 0 ≤ i → i < xs.length → (List.replicate (xs.count 0) (g 0) ++ List.replicate (xs.count 1) (g 1)).getD i 0 = g 1 := by
    intro i h1 h2
    rw [List.getD_eq_getElem?_getD, List.getElem?_append_right (by simpa using h1), List.getElem?_replicate, if_pos (by simp; omega)]
    rfl
  rw [hget _ hfl (by omega), hget _ (by omega) (by omega)]
  ring

theorem filter_two (xs : List (Fin 2)) (g : Fin 2 → ℝ) (hg : g 0 < g 1) :
    ((xs.map g).filter fun x => decide (g 1 ≤ x)) = List.replicate (xs.count 1) (g 1) := by
  induction xs with
  | nil => simp
  | cons y xs ih =>
    fin_cases y
    · simp only [Fin.zero_eta, List.map_cons]
      rw [List.filter_cons_of_neg (by simpa using hg), List.count_cons_of_ne (by decide)]
      exact ih
    · simp only [Fin.mk_one, List.map_cons]
      rw [List.filter_cons_of_pos (by simp), List.count_cons_self, List.replicate_succ, ih]

theorem ess_replicate (k : ℕ) (hk : 0 < k) (c : ℝ) (hc : 0 < c) : ess (List.replicate k c) = k := by
  have : (0 : ℝ) < k := by exact_mod_cast hk
  simp only [ess, List.sum_replicate, List.map_replicate, nsmul_eq_mul]
  field_simp

/-- Two kinds of particles, the heavy ones a thousand times as heavy as the light ones, and at most one and a half times as many light ones as heavy ones:
trimming to 0.99 of the effective size drops all the light ones. -/
theorem trim_drops (xs : List (Fin 2)) (g : Fin 2 → ℝ) (hg0 : 0 < g 0) (hg : g 1 = 1000 * g 0) (h3 : 10 ≤ xs.length)
    (h : 2 * xs.count 0 ≤ 3 * xs.count 1) (tr : Trimmed (Fin 2)) (ht : trimWeights xs ((xs.map g).map fin) (fin 0.99) 1000 = .ok tr) :
    ∀ y ∈ tr.samples, y = 1 := by
  have hc := count_two xs
  have hk : 0 < xs.count 1 := by omega
  have hg1 : 0 < g 1 := by rw [hg]; positivity
  have hpos : ∀ y, 0 < g y := fun y => by fin_cases y <;> assumption
  have hxs : xs ≠ [] := by rintro rfl; simp at h3
  have hs : 0 < (xs.map g).sum := List.sum_pos _ (fun a ha => by
    obtain ⟨y, -, rfl⟩ := List.mem_map.mp ha
    exact hpos y) (by simpa using hxs)
  have hW : IsWeights (xs.map g) := ⟨fun a ha => by
    obtain ⟨y, -, rfl⟩ := List.mem_map.mp ha
    exact (hpos y).le, hs⟩
  obtain ⟨j, hj, h1, h2, hlast⟩ := trimWeights_ok xs (xs.map g) hW (by simp) 0.99 (by norm_num) 1000 (by norm_num)
  set S := (xs.map g).sum with hS
  set g' : Fin 2 → ℝ := fun y => g y / S with hg'
  have hwn : (xs.map g).map (· / S) = xs.map g' := by rw [List.map_map]; rfl
  rw [hwn] at h1 h2 hlast
  have hg'0 : 0 < g' 0 := div_pos hg0 hs
  have hg'1 : g' 1 = 1000 * g' 0 := by simp only [hg', hg]; ring
  have hg'le : g' 0 ≤ g' 1 := by rw [hg'1]; linarith
  have hgrid : gridPoint 1000 999 = 99 := by unfold gridPoint; norm_num
  have hper : Spec.percentile (xs.map g') 99 = g' 1 := by
    refine percentile_two xs g' hg'le 99 (by norm_num) (by norm_num) (by omega) ?_
    have a1 : (xs.count 0 : ℝ) + xs.count 1 = xs.length := by exact_mod_cast hc
    have a2 : (2 : ℝ) * xs.count 0 ≤ 3 * xs.count 1 := by exact_mod_cast h
    have a3 : (10 : ℝ) ≤ xs.length := by exact_mod_cast h3
    linarith
  have hkept : keptAt (xs.map g') 1000 999 = List.replicate (xs.count 1) (g' 1) := by
    unfold keptAt
    rw [hgrid, hper]
    exact filter_two xs g' (by rw [hg'1]; linarith)
  have hj : j = 999 := by
    by_contra hne
    have := hlast 999 (by omega) (by norm_num)
    rw [hkept, ess_replicate _ hk _ (by rw [hg'1]; positivity)] at this
    have hsum : (xs.map g').sum = xs.count 0 * g' 0 + xs.count 1 * g' 1 := by
      have := ((perm_two xs).map g').sum_eq
      simpa using this
    have hsq : ((xs.map g').map (· ^ 2)).sum = xs.count 0 * g' 0 ^ 2 + xs.count 1 * g' 1 ^ 2 := by
      have := (((perm_two xs).map g').map (· ^ 2)).sum_eq
      simpa using this
    unfold ess at this
    rw [hsum, hsq, hg'1] at this
    have a2 : (2 : ℝ) * xs.count 0 ≤ 3 * xs.count 1 := by exact_mod_cast h
    have a4 : (0 : ℝ) < xs.count 1 := by exact_mod_cast hk
    have a5 : (0 : ℝ) ≤ xs.count 0 := Nat.cast_nonneg _
    generalize (xs.count 0 : ℝ) = m at *
    generalize (xs.count 1 : ℝ) = k at *
    generalize g' 0 = c at *
    rw [mul_div_assoc', lt_div_iff₀ (by positivity)] at this
    have e1 : k * (m * c ^ 2 + k * (1000 * c) ^ 2) = c ^ 2 * (k * (m + 1000000 * k)) := by ring
    have e2 : 0.99 * (m * c + k * (1000 * c)) ^ 2 = c ^ 2 * (0.99 * (m + 1000 * k) ^ 2) := by ring
    rw [e1, e2] at this
    have := lt_of_mul_lt_mul_left this (by positivity)
    nlinarith
  rw [h1] at ht
  obtain rfl := Except.ok.inj ht
  intro y hy
  simp only [hj, hgrid, hper] at hy
  obtain ⟨⟨y', a⟩, hq, rfl⟩ := List.mem_map.mp hy
  obtain ⟨hq1, hq2⟩ := List.mem_filter.mp hq
  have ha : a = g' y' := by
    rw [← List.map_id xs, List.map_map] at hq1
    have : (List.map id xs).zip (List.map (g' ∘ id) (xs)) = xs.map fun y => (y, g' y) := by
      rw [List.zip_map', ]
      rfl
    simp only [List.map_id] at hq1 this
    rw [this] at hq1
    obtain ⟨y'', -, h⟩ := List.mem_map.mp hq1
    simp only [Prod.mk.injEq] at h
    rw [← h.1, ← h.2]
  simp only [decide_eq_true_eq] at hq2
  rw [ha] at hq2
  change y' = 1
  fin_cases y'
  · exfalso
    simp only [Fin.zero_eta] at hq2
    rw [hg'1] at hq2
    linarith
  · rfl

end Poco
