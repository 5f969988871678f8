import Verif.Props.Geometry
import Verif.Props.Resample
import Verif.Props.Flow

/-! C101: the proposal geometry is made of the particles, in proportion to their weights. -/

namespace Poco.Spec

variable {d : ℕ}

/-- `m` lies, in every coordinate, between two of the particles. -/
def Within (X : List (Vec d)) (m : Vec d) : Prop := ∀ j, (∃ x ∈ X, x j ≤ m j) ∧ ∃ x ∈ X, m j ≤ x j

end Poco.Spec

namespace Poco
open Spec

variable {d : ℕ}

theorem median_between {l : List ℝ} (hl : l ≠ []) : (∃ a ∈ l, a ≤ median l) ∧ ∃ b ∈ l, median l ≤ b := by
  obtain ⟨a, ha, b, hb, h⟩ := median_mem hl
  rcases le_total a b with hab | hab
  · exact ⟨⟨a, ha, by rw [h]; linarith⟩, b, hb, by rw [h]; linarith⟩
  · exact ⟨⟨b, hb, by rw [h]; linarith⟩, a, ha, by rw [h]; linarith⟩

theorem startMu_within {X : List (Vec d)} (hX : X ≠ []) : Within X (startMu X) := by
  intro j
  obtain ⟨⟨a, ha, h1⟩, b, hb, h2⟩ := median_between (l := X.map fun x => x j) (by simpa using hX)
  obtain ⟨x, hx, rfl⟩ := List.mem_map.mp ha
  obtain ⟨y, hy, rfl⟩ := List.mem_map.mp hb
  exact ⟨⟨x, hx, h1⟩, y, hy, h2⟩

/-- A weighted mean lies between two of the values. -/
theorem weighted_between (w : List ℝ) (l : List ℝ) (hlen : w.length = l.length) (hw : ∀ v ∈ w, 0 ≤ v) (hs : 0 < w.sum) :
    (∃ a ∈ l, a ≤ (List.zipWith (· * ·) w l).sum / w.sum) ∧ ∃ b ∈ l, (List.zipWith (· * ·) w l).sum / w.sum ≤ b := by
  have key : ∀ (c : ℝ) (w l : List ℝ), w.length = l.length → (∀ v ∈ w, 0 ≤ v) → (∀ a ∈ l, c ≤ a) →
      c * w.sum ≤ (List.zipWith (· * ·) w l).sum := by
    intro c w
    induction w with
    | nil => intro l _ _ _; simp
    | cons v w ih =>
      intro l hl hw hc
      cases l with
      | nil => simp at hl
      | cons a l =>
        have := ih l (by simpa using hl) (fun v hv => hw v (by simp [hv])) (fun a ha => hc a (by simp [ha]))
        have h1 := mul_le_mul_of_nonneg_left (hc a (by simp)) (hw v (by simp))
        simp only [List.zipWith_cons_cons, List.sum_cons]
        linarith
  have hne : l ≠ [] := by
    rintro rfl
    have : w = [] := List.length_eq_zero_iff.mp (by simpa using hlen)
    rw [this] at hs; simp at hs
  obtain ⟨lo, hlo, hmin⟩ : ∃ a ∈ l, ∀ b ∈ l, a ≤ b := by
    obtain ⟨a, ha, h⟩ := Finset.exists_min_image l.toFinset id (by simpa using hne)
    exact ⟨a, by simpa using ha, fun b hb => h b (by simpa using hb)⟩
  obtain ⟨hi, hhi, hmax⟩ : ∃ a ∈ l, ∀ b ∈ l, b ≤ a := by
    obtain ⟨a, ha, h⟩ := Finset.exists_max_image l.toFinset id (by simpa using hne)
    exact ⟨a, by simpa using ha, fun b hb => h b (by simpa using hb)⟩
  refine ⟨⟨lo, hlo, ?_⟩, hi, hhi, ?_⟩
  · rw [le_div_iff₀ hs]; exact key lo w l hlen hw hmin
  · rw [div_le_iff₀ hs]
    have := key (-hi) w (l.map (-·)) (by simpa using hlen) hw (by
      intro a ha
      obtain ⟨b, hb, rfl⟩ := List.mem_map.mp ha
      have := hmax b hb
      linarith)
    have e : ∀ w l : List ℝ, (List.zipWith (· * ·) w (l.map (-·))).sum = -(List.zipWith (· * ·) w l).sum := by
      intro w
      induction w with
      | nil => intro l; simp
      | cons v w ih =>
        intro l
        cases l with
        | nil => simp
        | cons a l => simp only [List.map_cons, List.zipWith_cons_cons, List.sum_cons, ih]; ring
    rw [e] at this
    linarith

theorem emMu_within {X : List (Vec d)} {w : List ℝ} (hlen : w.length = X.length) (hw : ∀ v ∈ w, 0 ≤ v) (hs : 0 < w.sum) :
    Within X (emMu X w) := by
  intro j
  have e : emMu X w j = (List.zipWith (· * ·) w (X.map fun x => x j)).sum / w.sum := by
    unfold emMu
    rw [List.zipWith_map_right]
  rw [e]
  obtain ⟨⟨a, ha, h1⟩, b, hb, h2⟩ := weighted_between w (X.map fun x => x j) (by simpa using hlen) hw hs
  obtain ⟨x, hx, rfl⟩ := List.mem_map.mp ha
  obtain ⟨y, hy, rfl⟩ := List.mem_map.mp hb
  exact ⟨⟨x, hx, h1⟩, y, hy, h2⟩

theorem emWeights_sum_pos {δ : List ℝ} (hne : δ ≠ []) (hδ : ∀ x ∈ δ, 0 ≤ x) {nu : ℝ} (hnu : 0 < nu) : 0 < (emWeights d δ nu).sum := by
  apply List.sum_pos
  · intro v hv
    obtain ⟨x, hx, rfl⟩ := List.mem_map.mp hv
    have := hδ x hx
    positivity
  · simpa [emWeights] using hne

theorem emLoop_within {E : FitEnv} (hE : RootInRange E) (X : List (Vec d)) (hX : X ≠ []) (tol : ℝ) : ∀ (k : ℕ) (last nu : ℝ) (mu : Vec d)
    (S : Matrix (Fin d) (Fin d) ℝ) (r : TFit d), IsCov S → Within X mu → emLoop E X tol k last nu mu S = .ok r → Within X r.mu := by
  intro k
  induction k with
  | zero =>
    intro last nu mu S r _ hmu h
    cases h
    exact hmu
  | succ k ih =>
    intro last nu mu S r hS hmu h
    unfold emLoop at h
    split_ifs at h with h1 h2
    · cases ho : E.optNu d (deltaObs mu S X) with
      | error x => rw [ho] at h; cases h
      | ok o =>
        rw [ho] at h
        cases o with
        | none => cases h; exact hmu
        | some nu' =>
          dsimp only at h
          have hnu' := optNu_pos hE ho
          have hδ := deltaObs_nonneg hS h2 mu X
          cases he : emLoop E X tol k nu nu' (emMu X (emWeights d (deltaObs mu S X) nu'))
              (emSigma X mu (emWeights d (deltaObs mu S X) nu')) with
          | error x => rw [he] at h; cases h
          | ok r' =>
            rw [he] at h
            cases h
            exact ih _ _ _ _ r' (emSigma_cov (d := d) X mu (emWeights d _ _) (emWeights_pos hδ hnu'))
              (emMu_within (by simp [emWeights, deltaObs]) (emWeights_pos hδ hnu')
                (emWeights_sum_pos (by simpa [deltaObs] using hX) hδ hnu')) he
    · cases h
      exact hmu

/-- **C101**: the centre of the t fit lies in the range of the particles, in every coordinate, whatever rounding and root finding do. -/
theorem C101_centre (E : FitEnv) (hE : RootInRange E) (X : List (Vec d)) (tol : ℝ) (maxIter : ℕ) (r : TFit d)
    (h : fitMvstud E X tol maxIter = .ok r) : Within X r.mu := by
  unfold fitMvstud at h
  split_ifs at h with h1 h2
  have hX : X ≠ [] := fun h0 => h1 (by rw [h0]; rfl)
  exact emLoop_within hE X hX tol maxIter 0 20 _ _ r (startSigma_cov X (by omega)) (startMu_within hX) h

/-- **C101**: with weights, the t fit is made to as many particles as there are, all of them particles that were given; particle `i`
is used `n · w[i] / Σw` times, up to one. -/
theorem C101_data (theta : List (Vec d)) (w : List ℝ) (hw : IsWeights w) (hlen : w.length = theta.length)
    (hn : w.sum = 1 ∨ sqrtEps < |w.sum - 1|) (u : ℝ) (h0 : 0 < u) (h1 : u < 1) :
    ∃ (data : List (Vec d)) (used : List ℕ), tData theta (some w) u = .ok data ∧ data.length = theta.length ∧
      List.Forall₂ (fun i x => theta[i]? = some x) used data ∧
      ∀ (i : ℕ) (hi : i < w.length), |(used.count i : ℝ) - theta.length * (w[i] / w.sum)| < 1 := by
  obtain ⟨l, hl, hsize, hlt, -, -, hcount⟩ := C08_systematic theta.length w hw hn u h0.le h1
  have hlt' : ∀ i ∈ l, i < theta.length := fun i hi => by rw [← hlen]; exact hlt i hi
  have hd := gather_filterMap theta l hlt'
  refine ⟨l.filterMap (theta[·]?), l, ?_, ?_, ?_, hcount h0⟩
  · show (do let idx ← _; gather theta idx) = _
    rw [hl]
    exact hd
  · rw [(gather_ok hd).1, hsize]
  · clear hd hl hsize hlt hcount
    induction l with
    | nil => exact List.Forall₂.nil
    | cons i l ih =>
      have hi := hlt' i (by simp)
      rw [List.filterMap_cons_some (List.getElem?_eq_getElem hi)]
      exact List.Forall₂.cons (List.getElem?_eq_getElem hi) (ih fun j hj => hlt' j (by simp [hj]))

/-- **C101**: `Geometry.fit`: the weighted mean of the Gaussian and the centre of the t distribution lie in the range of the
particles. -/
theorem C101_geometry (E : FitEnv) (hE : RootInRange E) (theta : List (Vec d)) (w : Option (List ℝ)) (u : ℝ) (g : Geo d)
    (hw : ∀ v, w = some v → IsWeights v) (h : geometryFit E theta w u = .ok g) :
    (∃ m : Vec d, g.normalMean = (fun j => F.fin (m j)) ∧ Within theta m) ∧
    ∃ m : Vec d, g.tMean = (fun j => F.fin (m j)) ∧ Within theta m := by
  obtain ⟨m, c, data, f, h1, -, h3, h4, rfl⟩ := geometryFit_ok h
  have hdata : ∀ x ∈ data, x ∈ theta := by
    cases w with
    | none => cases h3; exact fun x hx => hx
    | some w =>
      obtain ⟨idx, -, h5⟩ := bind_ok h3
      exact (gather_ok h5).2
  have hne : theta ≠ [] := by
    intro h0
    have hl := tData_length h3
    unfold fitMvstud at h4
    rw [if_pos (by rw [hl, h0]; rfl)] at h4
    cases h4
  refine ⟨⟨m, rfl, ?_⟩, f.mu, rfl, fun j => ?_⟩
  · cases w with
    | none =>
      cases h1
      intro j
      have := weighted_between (List.replicate theta.length 1) (theta.map fun x => x j) (by simp)
        (fun v hv => by rw [(List.mem_replicate.mp hv).2]; norm_num) (by
          rw [List.sum_replicate, nsmul_eq_mul, mul_one]; exact_mod_cast List.length_pos_iff.mpr hne)
      have e : (List.zipWith (· * ·) (List.replicate theta.length (1 : ℝ)) (theta.map fun x => x j)).sum /
          (List.replicate theta.length (1 : ℝ)).sum = colMean theta j := by
        unfold colMean
        rw [List.sum_replicate, nsmul_eq_mul, mul_one]
        congr 2
        apply List.ext_getElem <;> simp
      rw [e] at this
      obtain ⟨⟨a, ha, h1⟩, b, hb, h2⟩ := this
      obtain ⟨x, hx, rfl⟩ := List.mem_map.mp ha
      obtain ⟨y, hy, rfl⟩ := List.mem_map.mp hb
      exact ⟨⟨x, hx, h1⟩, y, hy, h2⟩
    | some w =>
      unfold normalMean at h1
      dsimp only at h1
      split_ifs at h1 with a1 a2
      cases h1
      exact emMu_within (not_not.mp a1) (hw w rfl).1 (hw w rfl).2
  · obtain ⟨⟨x, hx, k1⟩, y, hy, k2⟩ := C101_centre E hE data _ _ f h4 j
    exact ⟨⟨x, hdata x hx, k1⟩, y, hdata y hy, k2⟩

/-- Equal weights: every particle is used exactly once. -/
theorem systematic_equal (n : ℕ) (hn : 0 < n) (u : ℝ) (h0 : 0 < u) (h1 : u < 1) :
    systematicResample n ((List.replicate n (1 / (n : ℝ))).map F.fin) u = .ok (List.range n) := by
  have hnr : (0 : ℝ) < n := by exact_mod_cast hn
  have hsum : (List.replicate n (1 / (n : ℝ))).sum = 1 := by
    rw [List.sum_replicate, nsmul_eq_mul]; field_simp
  have hw : IsWeights (List.replicate n (1 / (n : ℝ))) :=
    ⟨fun v hv => by rw [(List.mem_replicate.mp hv).2]; positivity, by rw [hsum]; norm_num⟩
  obtain ⟨l, hl, hf⟩ := systematic_ok n _ hw (Or.inl hsum) u h1
  rw [hl]
  congr 1
  have hlen : l.length = n := by rw [← hf.length_eq]; simp [posReal]
  apply List.ext_getElem
  · simp [hlen]
  · intro i hi hi'
    have hin : i < n := by omega
    have hF := (List.forall₂_iff_get.mp hf).2 i (by rw [hf.length_eq]; exact hi) hi
    simp only [List.get_eq_getElem] at hF
    rw [List.getElem_range]
    refine Spec.FallsOn.unique hF ?_
    have hcum : ∀ k, k ≤ n → cum ((List.replicate n (1 / (n : ℝ))).map (· / (List.replicate n (1 / (n : ℝ))).sum)) k = k / n := by
      intro k hk
      unfold cum
      rw [hsum, List.map_replicate, List.take_replicate, min_eq_left hk, List.sum_replicate, nsmul_eq_mul]
      ring
    refine ⟨by simpa using hin, ?_, fun k hk => ?_⟩
    · rw [hcum _ (by omega)]
      simp only [posReal, List.getElem_map, List.getElem_range]
      gcongr
      push_cast
      linarith
    · rw [hcum _ (by omega)]
      simp only [posReal, List.getElem_map, List.getElem_range]
      gcongr
      have : ((k + 1 : ℕ) : ℝ) ≤ i := by exact_mod_cast hk
      linarith

/-- **C101**: equal weights are no weights. -/
theorem C101_equal_weights (E : FitEnv) (theta : List (Vec d)) (hne : theta ≠ []) (u v : ℝ) (h0 : 0 < u) (h1 : u < 1) :
    geometryFit E theta (some (List.replicate theta.length (1 / (theta.length : ℝ)))) u = geometryFit E theta none v := by
  have hn : 0 < theta.length := List.length_pos_iff.mpr hne
  set n := theta.length with hnn
  have hnr : (0 : ℝ) < n := by exact_mod_cast hn
  have hsum : (List.replicate n (1 / (n : ℝ))).sum = 1 := by
    rw [List.sum_replicate, nsmul_eq_mul]; field_simp
  have hz : ∀ f : Vec d → ℝ, (List.zipWith (fun a x => a * f x) (List.replicate n (1 / (n : ℝ))) theta).sum = (theta.map f).sum / n := by
    intro f
    have : List.zipWith (fun a x => a * f x) (List.replicate n (1 / (n : ℝ))) theta = theta.map fun x => 1 / (n : ℝ) * f x := by
      apply List.ext_getElem
      · simp [← hnn]
      · intro i _ _; simp
    rw [this, List.sum_map_mul_left]
    ring
  have e1 : normalMean theta (some (List.replicate n (1 / (n : ℝ)))) = normalMean theta none := by
    unfold normalMean
    dsimp only
    rw [if_neg (by simp [← hnn]), if_neg (by rw [hsum]; norm_num), hsum]
    congr 1
    funext j
    rw [hz, div_one]
    rfl
  have e2 : ∀ m, normalCov theta m (some (List.replicate n (1 / (n : ℝ)))) = normalCov theta m none := by
    intro m
    unfold normalCov
    dsimp only
    rw [if_neg, hsum]
    · congr 1
      funext j k
      have := hz fun x => (x j - m j) * (x k - m k)
      simp only [← mul_assoc] at this
      rw [this]
      have hsq : ((List.replicate n (1 / (n : ℝ))).map (· ^ 2)).sum = 1 / (n : ℝ) := by
        rw [List.map_replicate, List.sum_replicate, nsmul_eq_mul]; field_simp
      rw [hsq, ← hnn, div_one]
      rcases Nat.lt_or_ge 1 n with h2 | h2
      · have h2r : (1 : ℝ) < n := by exact_mod_cast h2
        have p1 : 0 < 1 - 1 / (n : ℝ) := by
          rw [sub_pos, div_lt_one hnr]; exact h2r
        have p2 : 0 < (n : ℝ) - 1 := by linarith
        rw [max_eq_left p1.le, max_eq_left p2.le, F.fin_div _ _ p1.ne', F.fin_div _ _ p2.ne', F.fin_mul, F.fin_mul]
        congr 1
        field_simp
      · have : n = 1 := by omega
        rw [this]
        norm_num
    · rw [List.any_eq_true]
      rintro ⟨x, hx, hc⟩
      rw [(List.mem_replicate.mp hx).2] at hc
      simp only [decide_eq_true_eq] at hc
      have : (0 : ℝ) < 1 / n := by positivity
      linarith
  have e3 : tData theta (some (List.replicate n (1 / (n : ℝ)))) u = tData theta none v := by
    show (do let idx ← _; gather theta idx) = Except.ok theta
    rw [← hnn, systematic_equal n hn u h0 h1]
    show gather theta (List.range n) = _
    rw [gather_filterMap theta _ (fun i hi => by rw [← hnn]; exact List.mem_range.mp hi), hnn, filterMap_range]
  unfold geometryFit
  rw [e1]
  simp only [e2, e3]

/-- An arithmetic so coarse that the equation for the degrees of freedom always looks solvable; the root finder answers 20. -/
noncomputable def coarseFit : FitEnv where
  rnd := fun _ => -1
  psi := fun _ => 0
  bisect := fun _ a b => if a ≤ 20 ∧ 20 ≤ b then .ok 20 else .error .valueError

theorem coarseFit_root : RootInRange coarseFit := by
  intro f a b r h
  unfold coarseFit at h
  dsimp only at h
  split_ifs at h with hc
  cases h
  exact hc

set_option exponentiation.threshold 400 in
/-- A fit that makes one full iteration and stops because the degrees of freedom no longer change. -/
example : ∃ r, fitMvstud coarseFit exampleData = .ok r ∧ r.nu = some 20 ∧ Within exampleData r.mu := by
  have hdet := isPosCov_det (startSigma_pos exampleData (by simp [exampleData]) exampleData_spread)
  have hopt : ∀ δ, coarseFit.optNu 2 δ = .ok (some 20) := by
    intro δ
    have hf : ∀ nu, coarseFit.func0 2 δ nu = -1 := fun nu => rfl
    unfold FitEnv.optNu
    rw [if_neg (by rw [hf]; norm_num)]
    show (if (1e-300 : ℝ) ≤ 20 ∧ (20 : ℝ) ≤ 1e300 then (Except.ok 20 : Except PyErr ℝ) else .error .valueError).map some = _
    rw [if_pos (by constructor <;> norm_num)]
    rfl
  have h : ∃ r, fitMvstud coarseFit exampleData = .ok r ∧ r.nu = some 20 := by
    unfold fitMvstud
    rw [if_neg (by simp [exampleData]), if_neg (by simp [exampleData])]
    unfold emLoop
    rw [if_pos (by norm_num), if_neg hdet, hopt]
    dsimp only
    unfold emLoop
    rw [if_neg (by norm_num)]
    exact ⟨_, rfl, rfl⟩
  obtain ⟨r, h1, h2⟩ := h
  exact ⟨r, h1, h2, C101_centre _ coarseFit_root _ _ _ _ h1⟩

example : ∃ (data : List (Vec 2)) (used : List ℕ), tData exampleData (some [1, 3, 4]) (1 / 2) = .ok data ∧
    List.Forall₂ (fun i x => exampleData[i]? = some x) used data := by
  obtain ⟨data, used, h1, -, h2, -⟩ := C101_data exampleData [1, 3, 4] ⟨by simp, by norm_num⟩ rfl
    (Or.inr (by unfold sqrtEps; norm_num)) (1 / 2) (by norm_num) (by norm_num)
  exact ⟨data, used, h1, h2⟩

example : ∃ g, geometryFit exampleFit exampleData (some (List.replicate 3 (1 / (3 : ℝ)))) (1 / 2) = .ok g ∧
    ∃ m : Vec 2, g.normalMean = (fun j => F.fin (m j)) ∧ Within exampleData m := by
  obtain ⟨-, h⟩ := C88_geometry exampleFit round53_double exampleFit_psi exampleData (by simp [exampleData])
    (by simp [exampleData]) (by norm_num) none 0 _ _ _ rfl rfl rfl
  obtain ⟨g, hg⟩ := h.mp exampleData_spread
  have e := C101_equal_weights exampleFit exampleData (by simp [exampleData]) (1 / 2) 0 (by norm_num) (by norm_num)
  rw [hg] at e
  exact ⟨g, by exact_mod_cast e, (C101_geometry exampleFit exampleFit_root exampleData none 0 g (fun v hv => by cases hv) hg).1⟩

end Poco
