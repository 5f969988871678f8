import Verif.Props.Config
import Verif.Props.Flow
import Verif.Props.Geometry

/-! C95: arguments given to the constructor are the ones used. -/

namespace Poco
open F Spec

theorem truncInt_natCast (n : ℕ) : truncInt (n : ℝ) = n := by
  have := truncInt_nat (n : ℤ) (by omega)
  exact_mod_cast this

/-- **C95**, partial: options given to the constructor are the ones the run uses; a named flow has the named number of
transformations; `n_prior` is used if it is at least `n_active`, and otherwise replaced by `n_active`.  Missing: rounding in
`n_prior`, see `C95_prior_rounded` and `C95_prior_drops_one`. -/
theorem C95_given_partial (a : InitArgs) (hs : Sensible a) (c : Config) (hc : construct a = .ok c) {d : ℕ} {B Φ : Type}
    (e : SamplerEnv d B Φ) (b : (Fin d → F) × (Fin d → F)) (per ref : Option (List (Fin d))) (φ : Φ) :
    (∀ n : ℕ, a.nActive = some (n : ℝ) → (c.env e).nActive = n) ∧
    (∀ n : ℕ, wantedEffective a = some (n : ℝ) → (c.fresh a b per ref φ : Sampler d B Φ).nEffective = n) ∧
    (∀ n : ℕ, a.nSteps = some (n : ℝ) → (c.env e).nSteps = n) ∧
    (a.nSteps = none → (c.env e).nSteps = dimension a / 2) ∧
    (∀ n : ℕ, a.nMaxSteps = some (n : ℝ) → (c.env e).nMaxSteps = n) ∧
    (∀ n : ℕ, a.nMaxSteps = none → a.nSteps = some (n : ℝ) → (c.env e).nMaxSteps = 10 * n) ∧
    (∀ n : ℕ, a.trainFrequency = some (n : ℝ) → (c.env e).trainFrequency = n) ∧
    (∀ n : ℕ, a.nPrior = some (n : ℝ) → (c.env e).nPrior = max n (c.env e).nActive) ∧
    (c.env e).preconditioned = a.precondition ∧ (c.env e).dynamic = a.dynamic ∧ c.vectorize = a.vectorize ∧
    (a.metric = "uss" ↔ (c.env e).metric = .uss) ∧ (a.metric = "ess" ↔ (c.env e).metric = .ess) ∧
    (a.sample = "rwm" ↔ (c.env e).sample = .rwm) ∧ (a.sample = "tpcn" ↔ (c.env e).sample = .tpcn) ∧
    (a.resample = "syst" ↔ (c.env e).resample = .syst) ∧ (a.resample = "mult" ↔ (c.env e).resample = .mult) ∧
    (a.transform = "logit" ↔ (c.fresh a b per ref φ : Sampler d B Φ).scaler.transform = .logit) ∧
    (a.transform = "probit" ↔ (c.fresh a b per ref φ : Sampler d B Φ).scaler.transform = .probit) ∧
    (∀ k ∈ [3, 6, 12], (a.flow = .name ("maf" ++ toString k) → ∃ w, c.flow = .maf k w) ∧
      (a.flow = .name ("nsf" ++ toString k) → ∃ w, c.flow = .nsf k w)) ∧
    (a.flow = .zuko ↔ c.flow = .given) ∧
    (a.pool = .none ↔ c.distribute = .builtinMap) ∧ (∀ n, a.pool = .int n ↔ c.distribute = .processes n) ∧
    (a.pool = .object true ↔ c.distribute = .poolMap) ∧
    c.batchSize = min (c.nEffective / 2) 512 ∧ c.patience = dimension a := by
  obtain ⟨s1, s2, s3, s4⟩ := construct_sizes hs hc
  obtain ⟨h1, h2, h3, h4, h5, h6, h7, h8, h9, h10, h11, h12, h13, h14, h15, h16, h17, h18, h19, h20, h21, h22⟩ := construct_ok hc
  refine ⟨?_, ?_, ?_, ?_, ?_, ?_, ?_, ?_, h20, h21, h22, ?_⟩
  · intro n hn
    obtain ⟨x, y⟩ := s1.1 _ hn
    have x' : c.nActive ≤ n := by exact_mod_cast x
    have y' : (n : ℤ) < c.nActive + 1 := by exact_mod_cast y
    show c.nActive.toNat = n
    omega
  · intro n hn
    obtain ⟨x, y⟩ := s2.1 _ hn
    have x' : c.nEffective ≤ n := by exact_mod_cast x
    have y' : (n : ℤ) < c.nEffective + 1 := by exact_mod_cast y
    show c.nEffective.toNat = n
    omega
  · intro n hn
    show c.nSteps.toNat = n
    rw [h15 _ hn, truncInt_natCast]; rfl
  · intro hn
    show c.nSteps.toNat = _
    rw [h14 hn]; rfl
  · intro n hn
    show c.nMaxSteps.toNat = n
    rw [h17 _ hn, truncInt_natCast]; rfl
  · intro n hn hn'
    show c.nMaxSteps.toNat = _
    rw [h16 hn, h15 _ hn', truncInt_natCast]; omega
  · intro n hn
    rw [hn] at h5
    simp only [initTrainFrequency, Except.ok.injEq] at h5
    show c.trainFrequency.toNat = n
    rw [← h5, truncInt_natCast]; rfl
  · intro n hn
    rw [hn] at h12
    simp only [initPrior] at h12
    rw [if_neg (show ¬ c.nActive = 0 by omega)] at h12
    simp only [Except.ok.injEq] at h12
    have hpos : (0 : ℝ) < c.nActive := by exact_mod_cast (by omega : 0 < c.nActive)
    show c.nPrior.toNat = max n c.nActive.toNat
    have e1 : max ((n : ℝ) / c.nActive) 1 * c.nActive = ((max n c.nActive.toNat : ℕ) : ℝ) := by
      have e2 : ((c.nActive.toNat : ℕ) : ℝ) = c.nActive := by
        exact_mod_cast Int.toNat_of_nonneg (by omega : 0 ≤ c.nActive)
      rw [max_mul_of_nonneg _ _ hpos.le, div_mul_cancel₀ _ hpos.ne', one_mul]
      push_cast
      rw [e2]
    rw [← h12, e1, truncInt_natCast]; rfl
  refine ⟨?_, ?_, ?_, ?_, ?_, ?_, ?_, ?_, ?_, ?_, ?_, ?_, ?_, ?_, h19⟩
  · show _ ↔ c.metric = .uss
    unfold initMetric at h7
    split_ifs at h7 with g1 g2 <;> simp only [Except.ok.injEq] at h7 <;> rw [← h7] <;> first | (simp [g1]; done) | (simp [g2]; done)
  · show _ ↔ c.metric = .ess
    unfold initMetric at h7
    split_ifs at h7 with g1 g2 <;> simp only [Except.ok.injEq] at h7 <;> rw [← h7] <;> first | (simp [g1]; done) | (simp [g2]; done)
  · show _ ↔ c.sample = .rwm
    unfold initSample at h9
    split_ifs at h9 with g1 g2 <;> simp only [Except.ok.injEq] at h9 <;> rw [← h9] <;> first | (simp [g1]; done) | (simp [g2]; done)
  · show _ ↔ c.sample = .tpcn
    unfold initSample at h9
    split_ifs at h9 with g1 g2 <;> simp only [Except.ok.injEq] at h9 <;> rw [← h9] <;> first | (simp [g1]; done) | (simp [g2]; done)
  · show _ ↔ c.resample = .syst
    unfold initResample at h11
    split_ifs at h11 with g1 g2 <;> simp only [Except.ok.injEq] at h11 <;> rw [← h11] <;> first | (simp [g1]; done) | (simp [g2]; done)
  · show _ ↔ c.resample = .mult
    unfold initResample at h11
    split_ifs at h11 with g1 g2 <;> simp only [Except.ok.injEq] at h11 <;> rw [← h11] <;> first | (simp [g1]; done) | (simp [g2]; done)
  · show _ ↔ c.transform = .logit
    unfold initTransform at h6
    split_ifs at h6 with g1 g2 <;> simp only [Except.ok.injEq] at h6 <;> rw [← h6] <;> first | (simp [g1]; done) | (simp [g2]; done)
  · show _ ↔ c.transform = .probit
    unfold initTransform at h6
    split_ifs at h6 with g1 g2 <;> simp only [Except.ok.injEq] at h6 <;> rw [← h6] <;> first | (simp [g1]; done) | (simp [g2]; done)
  · intro k hk
    have key : ∀ s, a.flow = .name s → initFlow (dimension a) (.name s) = .ok c.flow := fun s hs' => by rw [← hs']; exact h4
    simp only [List.mem_cons, List.not_mem_nil, or_false] at hk
    rcases hk with rfl | rfl | rfl <;> refine ⟨fun hf => ?_, fun hf => ?_⟩ <;>
      (have := key _ hf
       have h := Except.ok.inj this
       exact ⟨hiddenWidth (dimension a), h.symm⟩)
  · cases hf : a.flow with
    | name s =>
      rw [hf] at h4
      simp only [initFlow] at h4
      split_ifs at h4 <;> simp only [Except.ok.injEq] at h4 <;> simp [← h4]
    | zuko => rw [hf] at h4; simp only [initFlow, Except.ok.injEq] at h4; simp [← h4]
    | other => rw [hf] at h4; cases h4
  · cases hp : a.pool with
    | none => rw [hp] at h2; simp only [initPool, Except.ok.injEq] at h2; simp [← h2]
    | int n => rw [hp] at h2; simp only [initPool] at h2; split_ifs at h2; simp only [Except.ok.injEq] at h2; simp [← h2]
    | object m => rw [hp] at h2; cases m <;> simp only [initPool, Except.ok.injEq, reduceCtorEq] at h2; simp [← h2]
  · intro k
    cases hp : a.pool with
    | none => rw [hp] at h2; simp only [initPool, Except.ok.injEq] at h2; simp [← h2]
    | int n => rw [hp] at h2; simp only [initPool] at h2; split_ifs at h2; simp only [Except.ok.injEq] at h2; simp [← h2]
    | object m => rw [hp] at h2; cases m <;> simp only [initPool, Except.ok.injEq, reduceCtorEq] at h2; simp [← h2]
  · cases hp : a.pool with
    | none => rw [hp] at h2; simp only [initPool, Except.ok.injEq] at h2; simp [← h2]
    | int n => rw [hp] at h2; simp only [initPool] at h2; split_ifs at h2; simp only [Except.ok.injEq] at h2; simp [← h2]
    | object m => rw [hp] at h2; cases m <;> simp only [initPool, Except.ok.injEq, reduceCtorEq] at h2; simp [← h2]
  · rw [h18, Int.fdiv_eq_ediv_of_nonneg _ (by norm_num)]

/-! ### `n_prior` in double precision -/

/-- Rounding to a relative precision of `2^-53` that keeps the integers up to `2^53`. -/
structure Spec.Precise (rnd : ℝ → ℝ) : Prop where
  error : ∀ x, |rnd x - x| ≤ 2⁻¹ ^ 53 * |x|
  nat : ∀ k : ℕ, k ≤ 2 ^ 53 → rnd k = k

theorem round53_error (x : ℝ) : |round53 x - x| ≤ 2⁻¹ ^ 53 * |x| := by
  have pos : ∀ x : ℝ, 0 < x → |round53 x - x| ≤ 2⁻¹ ^ 53 * |x| := by
    intro x hx
    rw [round53_pos hx, abs_of_pos hx]
    set e := Int.log 2 x with he
    have hp : (0 : ℝ) < 2 ^ (e - 52) := by positivity
    have h1 := abs_sub_round (x / 2 ^ (e - 52))
    have h2 : (2 : ℝ) ^ e ≤ x := by exact_mod_cast Int.zpow_log_le_self (b := 2) one_lt_two hx
    have h3 : (2 : ℝ) ^ (e - 52) = 2 ^ e / 2 ^ 52 := by
      rw [zpow_sub₀ two_ne_zero]; norm_cast
    calc |(round (x / 2 ^ (e - 52)) : ℝ) * 2 ^ (e - 52) - x|
        = |x / 2 ^ (e - 52) - round (x / 2 ^ (e - 52))| * 2 ^ (e - 52) := by
          rw [← abs_of_pos hp, ← abs_mul, abs_of_pos hp, sub_mul, div_mul_cancel₀ _ hp.ne', abs_sub_comm]
      _ ≤ 1 / 2 * 2 ^ (e - 52) := by gcongr
      _ = 2⁻¹ ^ 53 * 2 ^ e := by rw [h3]; ring
      _ ≤ 2⁻¹ ^ 53 * x := by gcongr
  rcases lt_trichotomy x 0 with h | h | h
  · have := pos (-x) (neg_pos.mpr h)
    rw [round53_neg, abs_neg] at this
    rwa [show -round53 x - -x = -(round53 x - x) by ring, abs_neg] at this
  · rw [h, round53_zero]; simp
  · exact pos x h

theorem round53_precise : Precise round53 := ⟨round53_error, round53_nat⟩

/-- **C95**, `n_prior` in double precision: the number of prior samples is the one asked for or one less; it is the one asked
for if it is a multiple of `n_active`. -/
theorem C95_prior_rounded (rnd : ℝ → ℝ) (hr : Precise rnd) (n k : ℕ) (hk : 0 < k) (hkn : k ≤ n) (hn : n < 2 ^ 51) :
    (priorRounded rnd n k = n ∨ priorRounded rnd n k = n - 1) ∧ (k ∣ n → priorRounded rnd n k = n) := by
  have hk' : (0 : ℝ) < k := by exact_mod_cast hk
  have hn' : (n : ℝ) ≤ 2 ^ 51 - 1 := by
    have : n + 1 ≤ 2 ^ 51 := hn
    have : ((n + 1 : ℕ) : ℝ) ≤ ((2 ^ 51 : ℕ) : ℝ) := by exact_mod_cast this
    push_cast at this
    linarith
  have hkn' : (k : ℝ) ≤ n := by exact_mod_cast hkn
  have hn0 : (0 : ℝ) < n := lt_of_lt_of_le hk' hkn'
  have hq : (1 : ℝ) ≤ n / k := by rw [le_div_iff₀ hk']; linarith
  constructor
  · have e1 := abs_le.mp (hr.error (n / k))
    rw [abs_of_pos (by linarith : (0 : ℝ) < n / k)] at e1
    set y := rnd (n / k) with hy
    set m := max y 1 with hm
    have m1 : (1 : ℝ) ≤ m := le_max_right _ _
    have m2 : (n / k : ℝ) * (1 - 2⁻¹ ^ 53) ≤ m := le_trans (by linarith [e1.1]) (le_max_left _ _)
    have m3 : m ≤ (n / k : ℝ) * (1 + 2⁻¹ ^ 53) := by
      apply max_le
      · linarith [e1.2]
      · nlinarith [show (0 : ℝ) < 2⁻¹ ^ 53 by positivity]
    have hmk : 0 < m * k := by positivity
    have e2 := abs_le.mp (hr.error (m * k))
    rw [abs_of_pos hmk] at e2
    have hnk : (n / k : ℝ) * k = n := div_mul_cancel₀ _ hk'.ne'
    have p1 : (n : ℝ) * (1 - 2⁻¹ ^ 53) ≤ m * k := by
      calc (n : ℝ) * (1 - 2⁻¹ ^ 53) = (n / k : ℝ) * (1 - 2⁻¹ ^ 53) * k := by rw [mul_right_comm, hnk]
        _ ≤ m * k := by gcongr
    have p2 : m * k ≤ (n : ℝ) * (1 + 2⁻¹ ^ 53) := by
      calc m * k ≤ (n / k : ℝ) * (1 + 2⁻¹ ^ 53) * k := by gcongr
        _ = (n : ℝ) * (1 + 2⁻¹ ^ 53) := by rw [mul_right_comm, hnk]
    have lo : ((n - 1 : ℕ) : ℝ) ≤ rnd (m * k) := by
      have h1 : 1 ≤ n := by omega
      push_cast [h1]
      have hb : (n : ℝ) ≤ 2251799813685247 := by linarith
      norm_num at e2 p1 p2 ⊢
      linarith [e2.1]
    have hi : rnd (m * k) < ((n + 1 : ℕ) : ℝ) := by
      push_cast
      have hb : (n : ℝ) ≤ 2251799813685247 := by linarith
      norm_num at e2 p1 p2 ⊢
      linarith [e2.2]
    unfold priorRounded
    rw [← hy, ← hm]
    unfold truncInt
    rw [if_pos (le_trans (by positivity) lo)]
    have f1 : ((n - 1 : ℕ) : ℤ) ≤ ⌊rnd (m * k)⌋ := Int.le_floor.mpr (by exact_mod_cast lo)
    have f2 : ⌊rnd (m * k)⌋ < ((n + 1 : ℕ) : ℤ) := Int.floor_lt.mpr (by exact_mod_cast hi)
    omega
  · rintro ⟨q, rfl⟩
    have hq0 : 1 ≤ q := by
      rcases Nat.eq_zero_or_pos q with rfl | h
      · simp at hkn; omega
      · exact h
    have hq1 : q ≤ 2 ^ 53 := by nlinarith
    have e1 : ((k * q : ℕ) : ℝ) / k = q := by push_cast; field_simp
    have hqr : (1 : ℝ) ≤ q := by exact_mod_cast hq0
    unfold priorRounded
    rw [e1, hr.nat q hq1, max_eq_left hqr, show ((q : ℝ) * k) = ((k * q : ℕ) : ℝ) by push_cast; ring,
      hr.nat (k * q) (by omega), truncInt_natCast]

/-- **C95** is false in double precision: with `n_active=11`, `n_prior=15` gives 14 prior samples. -/
theorem C95_prior_drops_one : priorRounded round53 15 11 = 14 := by
  have l1 : Int.log 2 (15 / 11 : ℝ) = 0 := log2_eq (by norm_num) (by norm_num)
  have r1 : round53 (15 / 11) = 6141272219141585 / 2 ^ 52 := by
    rw [round53_pos (by norm_num), l1]
    have : round (15 / 11 / (2 : ℝ) ^ ((0 : ℤ) - 52)) = 6141272219141585 := by
      rw [round_eq, Int.floor_eq_iff]
      constructor <;> norm_num
    rw [this]
    norm_num
  have l2 : Int.log 2 (6141272219141585 / 2 ^ 52 * 11 : ℝ) = 3 := log2_eq (by norm_num) (by norm_num)
  have r2 : round53 (6141272219141585 / 2 ^ 52 * 11) = 8444249301319679 / 2 ^ 49 := by
    rw [round53_pos (by norm_num), l2]
    have : round (6141272219141585 / 2 ^ 52 * 11 / (2 : ℝ) ^ ((3 : ℤ) - 52)) = 8444249301319679 := by
      rw [round_eq, Int.floor_eq_iff]
      constructor <;> norm_num
    rw [this]
    norm_num
  unfold priorRounded
  rw [show ((15 : ℕ) : ℝ) / ((11 : ℕ) : ℝ) = 15 / 11 by norm_num, r1, max_eq_left (by norm_num),
    show ((11 : ℕ) : ℝ) = 11 by norm_num, r2]
  unfold truncInt
  rw [if_pos (by norm_num), Int.floor_eq_iff]
  constructor <;> norm_num

/-- The hypotheses of `C95_prior_rounded` are met: a multiple of `n_active` is kept (C95). -/
example : priorRounded round53 1000 50 = 1000 :=
  (C95_prior_rounded round53 round53_precise 1000 50 (by norm_num) (by norm_num) (by norm_num)).2 (by norm_num)

/-- Options given, and used (C95). -/
example : ∃ c, construct { defaultArgs 4 .none with nSteps := some 7, sample := "rwm", flow := .name "maf12" } = .ok c ∧
    c.nSteps = 7 ∧ c.nMaxSteps = 70 ∧ c.sample = .rwm ∧ ∃ w, c.flow = .maf 12 w := by
  set a : InitArgs := { defaultArgs 4 .none with nSteps := some 7, sample := "rwm", flow := .name "maf12" } with ha
  have hs : Sensible a := ⟨(default_sensible 4 (by norm_num) .none).1, (default_sensible 4 (by norm_num) .none).2,
    (default_sensible 4 (by norm_num) .none).3⟩
  have hf : ¬ Forbidden a := by
    unfold Forbidden
    simp [ha, defaultArgs, wantedEffective]
  obtain ⟨c, hc⟩ := (C63_validation a hs trivial).2 hf
  obtain ⟨-, -, -, h4, -, -, -, -, h9, -, -, -, -, -, h15, h16, -⟩ := construct_ok hc
  have e1 : c.nSteps = 7 := by rw [h15 7 rfl]; exact_mod_cast truncInt_natCast 7
  refine ⟨c, hc, e1, by rw [h16 rfl, e1]; rfl, (Except.ok.inj h9).symm, _, (Except.ok.inj h4).symm⟩

/-- The documentation of `sample` lists `"pcn"`; it is refused (C63). -/
theorem C63_pcn_refused (a : InitArgs) (hs : Sensible a) (hp : PoolUsable a.pool) (h : a.sample = "pcn") :
    construct a = .error .valueError := by
  refine (C63_validation a hs hp).1.mpr (Or.inr (Or.inr (Or.inr (Or.inr (Or.inl ?_)))))
  rw [h]
  decide

end Poco
