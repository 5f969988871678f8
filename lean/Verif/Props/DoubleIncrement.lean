import Verif.Lemmas.DoubleEvidence

/-! # C152: `increment_logz` in double precision with `-inf` log-weights -/

namespace Poco
open F Spec

theorem maximum_ninf_left (o : Option ℝ) : maximum ninf (o.elim ninf fin) = o.elim ninf fin := by
  cases o with
  | none => simp [maximum, isnan]
  | some x =>
    show maximum ninf (fin x) = fin x
    unfold maximum
    rw [if_neg (by simp [isnan]), if_neg (by simp [isnan]), if_pos (show (ninf : F) ≤ fin x from trivial)]

theorem maximum_ninf_right {a : F} (h : a = ninf ∨ ∃ r, a = fin r) : maximum a ninf = a := by
  rcases h with rfl | ⟨r, rfl⟩
  · exact maximum_ninf_left none
  · unfold maximum
    rw [if_neg (by simp [isnan]), if_neg (by simp [isnan]), if_neg (show ¬ fin r ≤ ninf from id)]

theorem maximum_fin_shape {a : F} (h : a = ninf ∨ ∃ r, a = fin r) (x : ℝ) : ∃ r, maximum a (fin x) = fin r := by
  rcases h with rfl | ⟨r, rfl⟩
  · exact ⟨x, maximum_ninf_left (some x)⟩
  · unfold maximum
    rw [if_neg (by simp [isnan]), if_neg (by simp [isnan])]
    split_ifs
    · exact ⟨x, rfl⟩
    · exact ⟨r, rfl⟩

/-- `-inf` entries do not change `np.max`. -/
theorem max_skip (o : List (Option ℝ)) (h : o.reduceOption ≠ []) : F.max (o.map fun o => o.elim ninf fin) = F.max (o.reduceOption.map fin) := by
  have key : ∀ (l : List (Option ℝ)) (a : F), (a = ninf ∨ ∃ r, a = fin r) →
      (l.map fun o => o.elim ninf fin).foldl maximum a = (l.reduceOption.map fin).foldl maximum a := by
    intro l
    induction l with
    | nil => intro a _; rfl
    | cons o l ih =>
      intro a ha
      cases o with
      | none =>
        rw [List.reduceOption_cons_of_none, List.map_cons, List.foldl_cons]
        show (l.map fun o => o.elim ninf fin).foldl maximum (maximum a ninf) = _
        rw [maximum_ninf_right ha]
        exact ih a ha
      | some x =>
        rw [List.reduceOption_cons_of_some, List.map_cons, List.map_cons, List.foldl_cons, List.foldl_cons]
        exact ih _ (.inr (maximum_fin_shape ha x))
  have start : ∀ l : List (Option ℝ), l ≠ [] → F.max (l.map fun o => o.elim ninf fin) = .ok ((l.map fun o => o.elim ninf fin).foldl maximum ninf) := by
    intro l hl
    obtain ⟨a, l, rfl⟩ := List.exists_cons_of_ne_nil hl
    rw [List.map_cons, List.foldl_cons, maximum_ninf_left]
    rfl
  have hne : o ≠ [] := by rintro rfl; exact h rfl
  rw [start o hne, key o ninf (.inl rfl)]
  have e : o.reduceOption.map fin = (o.reduceOption.map some).map fun o => o.elim ninf fin := by rw [List.map_map]; rfl
  rw [e, ← start (o.reduceOption.map some) (by simpa using h)]

/-- C152: `increment_logz` in double precision, from at most `2^40` log-weights that are `-inf` or of absolute value at most `M` (not all `-inf`), is the
logarithm of the total weight up to an absolute error of `n·2⁻⁴⁷·(M + 16)`. -/
theorem C152_increment_inf {A : ArithLog} (hA : IsDoubleLog A) (logw : List F) (hf : logw.length ≤ 2 ^ 40) (M : ℝ)
    (hM : ∀ x ∈ logw, x = ninf ∨ ∃ l, x = fin l ∧ |l| ≤ M) (hs : ∃ x ∈ logw, x ≠ ninf) :
    ∃ r : ℝ, incrementLogzD A logw = .ok (fin r) ∧
      |r - Real.log (logw.map weightOf).sum| ≤ logw.length * 2⁻¹ ^ 47 * (M + 16) := by
  obtain ⟨o, h1, h2, h3⟩ : ∃ o : List (Option ℝ), logw = o.map (fun o => o.elim ninf fin) ∧
      (logw.map weightOf).sum = (o.reduceOption.map Real.exp).sum ∧ ∀ x ∈ o.reduceOption, |x| ≤ M := by
    clear hf hs
    induction logw with
    | nil => exact ⟨[], rfl, rfl, by simp⟩
    | cons a l ih =>
      obtain ⟨o, h1, h2, h3⟩ := ih fun x hx => hM x (by simp [hx])
      rcases hM a (by simp) with rfl | ⟨x, rfl, hx⟩
      · refine ⟨none :: o, by rw [h1]; rfl, ?_, by rw [List.reduceOption_cons_of_none]; exact h3⟩
        rw [List.reduceOption_cons_of_none, ← h2]
        rw [List.map_cons, List.sum_cons]
        exact zero_add _
      · refine ⟨some x :: o, by rw [h1]; rfl, ?_, ?_⟩
        · rw [List.reduceOption_cons_of_some, List.map_cons, List.map_cons, List.sum_cons, List.sum_cons, h2]
          rfl
        · rw [List.reduceOption_cons_of_some]
          intro y hy
          rcases List.mem_cons.mp hy with rfl | hy
          · exact hx
          · exact h3 y hy
  have hne : o.reduceOption ≠ [] := by
    obtain ⟨x, hx, hxn⟩ := hs
    rw [h1] at hx
    obtain ⟨a, ha, rfl⟩ := List.mem_map.mp hx
    cases a with
    | none => exact absurd rfl hxn
    | some y => exact List.ne_nil_of_mem (List.reduceOption_mem_iff.mpr ha)
  have hlen : o.reduceOption.length ≤ logw.length := by
    rw [h1, List.length_map]; exact List.reduceOption_length_le o
  obtain ⟨r, h4, h5⟩ := C152_increment hA o.reduceOption hne (hlen.trans hf) M h3
  refine ⟨r, ?_, ?_⟩
  · rw [← h4, h1]
    unfold incrementLogzD
    rw [max_skip o hne]
    cases hm : F.max (o.reduceOption.map fin) with
    | error e => rfl
    | ok m =>
      have hmf : ∃ m', m = fin m' := by
        obtain ⟨a, l, hal⟩ := List.exists_cons_of_ne_nil hne
        rw [hal] at hm
        obtain ⟨m', e1, -⟩ := foldl_maximum_fin l a
        simp only [List.map_cons, F.max, Except.ok.injEq] at hm
        exact ⟨m', by rw [← hm, e1]⟩
      obtain ⟨m', rfl⟩ := hmf
      show Except.ok _ = Except.ok _
      congr 3
      have e1 : (o.map fun o => o.elim ninf fin).map (fun l => A.round (l - fin m')) =
          (o.map fun a => a.map fun l => A.rnd (l - m')).map fun o => o.elim ninf fin := by
        rw [List.map_map, List.map_map]
        apply List.map_congr_left
        intro a _
        cases a <;> rfl
      have e2 : (o.reduceOption.map fin).map (fun l => A.round (l - fin m')) = ((o.map fun a => a.map fun l => A.rnd (l - m')).reduceOption).map fin := by
        rw [List.reduceOption_map, List.map_map, List.map_map]
        rfl
      rw [e1, e2, lseD_skip hA]
  · rw [h2]
    have hM0 : 0 ≤ M := by
      obtain ⟨x, hx⟩ := List.exists_mem_of_ne_nil _ hne
      exact (abs_nonneg x).trans (h3 x hx)
    have hlen' : (o.reduceOption.length : ℝ) ≤ logw.length := by exact_mod_cast hlen
    refine h5.trans ?_
    gcongr

example : ∃ r : ℝ, incrementLogzD demoLog [fin 0, ninf, fin (-1)] = .ok (fin r) ∧
    |r - Real.log ([fin 0, ninf, fin (-1)].map weightOf).sum| ≤ ([fin 0, ninf, fin (-1)].length : ℕ) * 2⁻¹ ^ 47 * (1 + 16) :=
  C152_increment_inf demo_doubleLog _ (by norm_num) 1 (by simp) ⟨fin 0, by simp, by simp⟩

end Poco
