import Verif.Model.Search
import Verif.Props.Reweight

/-! C104: the temperature search in double precision. -/

namespace Poco.Spec

/-- The double-precision numbers between -2 and 2: up to 53 binary digits, exponents down to -1074. -/
def doubles : Set ℝ := {x | ∃ m e : ℤ, |m| ≤ 2 ^ 53 ∧ -1074 ≤ e ∧ e ≤ -52 ∧ x = m * 2 ^ e}

/-- `r` rounds numbers between -2 and 2 to a nearest double. -/
def NearestDouble (r : ℝ → ℝ) : Prop := ∀ x, |x| ≤ 2 → r x ∈ doubles ∧ ∀ y ∈ doubles, |r x - x| ≤ |y - x|

/-- The size changes by less than 1% of the target between neighbouring doubles of `[b, 1]`. -/
def Gentle (size : ℝ → ℝ) (N b : ℝ) : Prop :=
  ∀ lo ∈ doubles, ∀ hi ∈ doubles, b ≤ lo → lo < hi → hi ≤ 1 → (∀ x ∈ doubles, ¬ (lo < x ∧ x < hi)) → |size lo - size hi| < 0.01 * N

end Poco.Spec

namespace Poco
open F Spec

variable {d : ℕ} {B : Type}

theorem doubles_finite : doubles.Finite := by
  have h : doubles ⊆ (fun p : ℤ × ℤ => (p.1 : ℝ) * 2 ^ p.2) '' (Set.Icc (-2 ^ 53) (2 ^ 53) ×ˢ Set.Icc (-1074) (-52)) := by
    rintro x ⟨m, e, h1, h2, h3, rfl⟩
    exact ⟨(m, e), ⟨⟨(abs_le.mp h1).1, (abs_le.mp h1).2⟩, h2, h3⟩, rfl⟩
  exact Set.Finite.subset (Set.Finite.image _ ((Set.finite_Icc _ _).prod (Set.finite_Icc _ _))) h

theorem exists_nearest : ∃ r, NearestDouble r := by
  have hne : doubles.Nonempty := ⟨0, 0, -52, by norm_num, by norm_num, by norm_num, by simp⟩
  have := fun x => Set.exists_min_image doubles (fun y => |y - x|) doubles_finite hne
  choose r h1 h2 using this
  exact ⟨r, fun x _ => ⟨h1 x, h2 x⟩⟩

theorem doubles_double {x : ℝ} (h : x ∈ doubles) (hx : |x| ≤ 1) : 2 * x ∈ doubles := by
  obtain ⟨m, e, h1, h2, h3, rfl⟩ := h
  rcases eq_or_lt_of_le h3 with rfl | h3
  · have h4 : |m| ≤ 2 ^ 52 := by
      rw [abs_mul, abs_of_pos (by positivity : (0 : ℝ) < 2 ^ (-52 : ℤ)), zpow_neg, ← div_eq_mul_inv, div_le_one (by positivity)] at hx
      exact_mod_cast hx
    refine ⟨2 * m, -52, ?_, by norm_num, by norm_num, by push_cast; ring⟩
    rw [abs_mul]
    norm_num
    linarith
  · refine ⟨m, e + 1, h1, by omega, by omega, ?_⟩
    rw [zpow_add₀ (by norm_num)]
    ring

theorem nearest_fix {r : ℝ → ℝ} (hr : NearestDouble r) {x : ℝ} (h : x ∈ doubles) (hx : |x| ≤ 2) : r x = x := by
  have := (hr x hx).2 x h
  simp at this
  linarith

/-- Every double is a multiple of the smallest one. -/
theorem doubles_multiple {x : ℝ} (h : x ∈ doubles) : ∃ k : ℤ, x = k * 2 ^ (-1074 : ℤ) := by
  obtain ⟨m, e, h1, h2, h3, rfl⟩ := h
  obtain ⟨n, hn⟩ : ∃ n : ℕ, e + 1074 = n := ⟨(e + 1074).toNat, by omega⟩
  refine ⟨m * 2 ^ n, ?_⟩
  have : e = n + (-1074) := by omega
  rw [this, zpow_add₀ (by norm_num)]
  push_cast
  rw [zpow_natCast]
  ring

/-- The new temperature lies between the ends, strictly if there is a double between them. -/
theorem midpoint {r : ℝ → ℝ} (hr : NearestDouble r) {a b : ℝ} (ha : a ∈ doubles) (hb : b ∈ doubles) (h0 : 0 ≤ a) (hab : a < b) (h1 : b ≤ 1) :
    let m := r (r (b + a) * 0.5)
    m ∈ doubles ∧ a ≤ m ∧ m ≤ b ∧ ((∃ c ∈ doubles, a < c ∧ c < b) → a < m ∧ m < b) := by
  intro m
  have hs : |b + a| ≤ 2 := by rw [abs_of_nonneg (by linarith)]; linarith
  obtain ⟨hp, hpn⟩ := hr _ hs
  set p := r (b + a) with hpd
  have h2a := doubles_double ha (by rw [abs_of_nonneg h0]; linarith)
  have h2b := doubles_double hb (by rw [abs_of_nonneg (by linarith)]; exact h1)
  have p1 := hpn _ h2a
  rw [abs_of_nonpos (by linarith : 2 * a - (b + a) ≤ 0)] at p1
  have p2 := abs_le.mp p1
  have hpa : 2 * a ≤ p := by linarith [p2.1]
  have hpb : p ≤ 2 * b := by linarith [p2.2]
  have hh : |p * 0.5| ≤ 2 := by rw [abs_of_nonneg (by linarith)]; linarith
  obtain ⟨hm, hmn⟩ := hr _ hh
  have m1 := hmn a ha
  have m2 := hmn b hb
  change |m - p * 0.5| ≤ |a - p * 0.5| at m1
  change |m - p * 0.5| ≤ |b - p * 0.5| at m2
  rw [abs_of_nonpos (by linarith : a - p * 0.5 ≤ 0)] at m1
  rw [abs_of_nonneg (by linarith : 0 ≤ b - p * 0.5)] at m2
  have m1' := abs_le.mp m1
  have m2' := abs_le.mp m2
  refine ⟨hm, by linarith [m1'.1], by linarith [m2'.2], ?_⟩
  rintro ⟨c, hc, hac, hcb⟩
  have h2c := doubles_double hc (by rw [abs_of_nonneg (by linarith)]; linarith)
  have p3 := hpn _ h2c
  have p4 : |2 * c - (b + a)| < b - a := by rw [abs_lt]; constructor <;> linarith
  have p5 := abs_lt.mp (p3.trans_lt p4)
  have hpa' : 2 * a < p := by linarith [p5.1]
  have hpb' : p < 2 * b := by linarith [p5.2]
  by_cases hhalf : p * 0.5 ∈ doubles
  · have : m = p * 0.5 := nearest_fix hr hhalf hh
    rw [this]
    constructor <;> linarith
  -- below the normal range
  obtain ⟨k, e, k1, k2, k3, k4⟩ := hp
  have he : e = -1074 := by
    by_contra hne
    apply hhalf
    refine ⟨k, e - 1, k1, by omega, by omega, ?_⟩
    rw [k4, zpow_sub₀ (by norm_num)]
    ring
  subst he
  have hodd : ¬ Even k := by
    rintro ⟨j, rfl⟩
    apply hhalf
    refine ⟨j, -1074, ?_, by norm_num, by norm_num, ?_⟩
    · rw [abs_le] at k1 ⊢; constructor <;> linarith [k1.1, k1.2]
    · rw [k4]; push_cast; ring
  obtain ⟨i, hi⟩ := doubles_multiple ha
  obtain ⟨j, hj⟩ := doubles_multiple hb
  obtain ⟨l, hl⟩ := doubles_multiple hc
  have hu : (0 : ℝ) < 2 ^ (-1074 : ℤ) := by positivity
  generalize huu : (2 : ℝ) ^ (-1074 : ℤ) = u at *
  have hil : i < l := by
    rw [hi, hl] at hac
    exact_mod_cast lt_of_mul_lt_mul_right hac hu.le
  have hlj : l < j := by
    rw [hj, hl] at hcb
    exact_mod_cast lt_of_mul_lt_mul_right hcb hu.le
  have hi0 : 0 ≤ i := by
    rw [hi] at h0
    exact_mod_cast nonneg_of_mul_nonneg_left h0 hu
  have hk53 : k ≤ 2 ^ 53 := (abs_le.mp k1).2
  have hij : i + j ≤ 2 ^ 53 := by
    by_contra hcon
    push Not at hcon
    have hd53 : (2 ^ 53 : ℝ) * u ∈ doubles := ⟨2 ^ 53, -1074, by norm_num, by norm_num, by norm_num, by rw [huu]; push_cast; ring⟩
    have q1 := hpn _ hd53
    have hcon' : (2 ^ 53 : ℝ) < i + j := by exact_mod_cast hcon
    have hba : b + a = ((i : ℝ) + j) * u := by rw [hi, hj]; ring
    have q2 : (2 ^ 53 : ℝ) * u - (b + a) ≤ 0 := by rw [hba]; nlinarith
    rw [abs_of_nonpos q2] at q1
    have q3 := (abs_le.mp q1).1
    have q4 : (2 ^ 53 : ℝ) * u ≤ k * u := by rw [← k4]; linarith
    have q5 : (2 ^ 53 : ℤ) ≤ k := by exact_mod_cast le_of_mul_le_mul_right q4 hu
    have : k = 2 ^ 53 := le_antisymm hk53 q5
    exact hodd (by rw [this]; exact ⟨2 ^ 52, by norm_num⟩)
  have hsum : b + a ∈ doubles := ⟨i + j, -1074, by rw [abs_le]; constructor <;> omega, by norm_num, by norm_num, by rw [huu, hi, hj]; push_cast; ring⟩
  have hps : p = b + a := nearest_fix hr hsum hs
  have hkij : k = i + j := by
    have : (k : ℝ) * u = ((i + j : ℤ) : ℝ) * u := by rw [← k4, hps, hi, hj]; push_cast; ring
    exact_mod_cast mul_right_cancel₀ hu.ne' this
  obtain ⟨n, hn⟩ := Int.not_even_iff_odd.mp hodd
  have hn1 : i + 1 ≤ n := by omega
  have hn2 : n + 1 ≤ j - 1 := by omega
  have q1 := hmn ((n : ℝ) * u) ⟨n, -1074, by rw [abs_le]; constructor <;> omega, by norm_num, by norm_num, by rw [huu]⟩
  have hkn : (k : ℝ) = 2 * n + 1 := by exact_mod_cast hn
  have q2 : |(n : ℝ) * u - p * 0.5| = u / 2 := by
    rw [k4, hkn, abs_of_nonpos (by nlinarith)]; ring
  rw [q2] at q1
  have q3 := abs_le.mp q1
  change -(u / 2) ≤ m - p * 0.5 ∧ m - p * 0.5 ≤ u / 2 at q3
  rw [k4, hkn] at q3
  have r1 : (i : ℝ) + 1 ≤ n := by exact_mod_cast hn1
  have r2 : (n : ℝ) + 1 ≤ j - 1 := by exact_mod_cast hn2
  rw [hi, hj]
  constructor
  · nlinarith [q3.1]
  · nlinarith [q3.2]

theorem midR_fin (r : ℝ → ℝ) (a b : ℝ) : F.rounded r (F.rounded r (fin b + fin a) * fin 0.5) = fin (r (r (b + a) * 0.5)) := by
  simp [F.rounded]

/-- The bisection ends if the size does not jump between neighbouring doubles. -/
theorem bisectR_terminates {r : ℝ → ℝ} (hr : NearestDouble r) (past : Cols d (List B) List) (h : List Stage) (k : ℕ) (hrect : Rect h k) (hh : Holds past h)
    (m : Metric) (N : ℝ) (b₀ : ℝ) (hj : Gentle (sizeAt m h) N b₀) (n : ℕ) :
    ∀ a b : ℝ, a ∈ doubles → b ∈ doubles → 0 ≤ a → b₀ ≤ a → a < b → b ≤ 1 → (doubles ∩ Set.Ioo a b).ncard ≤ n → N ≤ sizeAt m h a → sizeAt m h b < N →
      (b < 1 → sizeAt m h b ≤ 0.99 * N) →
    ∀ fuel, n + 1 ≤ fuel → ∃ β : ℝ, bisectR r past m (fin N) fuel (fin a) (fin b) = .ok (fin β, fin (sizeAt m h β)) ∧ β ∈ doubles ∧
      a ≤ β ∧ β ≤ b ∧ |sizeAt m h β - N| < 0.01 * N := by
  induction n with
  | zero =>
    intro a b ha hb h0 h00 hab h1 hcard hN1 hN2 hN3 fuel hf
    obtain ⟨f, rfl⟩ : ∃ f, fuel = f + 1 := ⟨fuel - 1, by omega⟩
    obtain ⟨g1, g2, g3, -⟩ := midpoint hr ha hb h0 hab h1
    have hnone : ∀ x ∈ doubles, ¬ (a < x ∧ x < b) := by
      intro x hx hxx
      have he := (Set.ncard_eq_zero (doubles_finite.inter_of_left _)).mp (Nat.le_zero.mp hcard)
      exact (Set.eq_empty_iff_forall_notMem.mp he x) ⟨hx, hxx⟩
    have hg := abs_lt.mp (hj a ha b hb h00 hab h1 hnone)
    simp only [bisectR, midR_fin, essAt_fin past h k hrect hh]
    set c := r (r (b + a) * 0.5)
    have hc : |sizeAt m h c - N| < 0.01 * N := by
      rcases eq_or_lt_of_le g2 with e | e
      · rw [← e, abs_lt]; constructor <;> linarith [hg.1, hg.2]
      · have : c = b := by
          by_contra hne
          exact hnone c g1 ⟨e, lt_of_le_of_ne g3 hne⟩
        rw [this]
        rcases eq_or_lt_of_le h1 with e1 | e1
        · rw [abs_lt]; constructor <;> linarith [hg.1, hg.2]
        · have := hN3 e1
          linarith [hg.1, hg.2]
    refine ⟨c, ?_, g1, g2, g3, hc⟩
    rw [if_pos]
    simpa using .inl hc
  | succ n ih =>
    intro a b ha hb h0 h00 hab h1 hcard hN1 hN2 hN3 fuel hf
    obtain ⟨f, rfl⟩ : ∃ f, fuel = f + 1 := ⟨fuel - 1, by omega⟩
    by_cases hex : ∃ x ∈ doubles, a < x ∧ x < b
    · obtain ⟨g1, g2, g3, g4⟩ := midpoint hr ha hb h0 hab h1
      obtain ⟨g5, g6⟩ := g4 hex
      simp only [bisectR, midR_fin, essAt_fin past h k hrect hh]
      set c := r (r (b + a) * 0.5)
      by_cases hc : |sizeAt m h c - N| < 0.01 * N ∨ c = 1
      · refine ⟨c, ?_, g1, g2, g3, hc.resolve_right (by linarith)⟩
        rw [if_pos]
        simpa using hc
      rw [if_neg (by simpa using hc)]
      push Not at hc
      have hfin := doubles_finite.inter_of_left (Set.Ioo a b)
      by_cases hlt : sizeAt m h c < N
      · rw [if_pos (by simpa using hlt)]
        have hsub : doubles ∩ Set.Ioo a c ⊂ doubles ∩ Set.Ioo a b := by
          refine ⟨fun x hx => ⟨hx.1, hx.2.1, hx.2.2.trans g6⟩, fun hcon => ?_⟩
          exact lt_irrefl _ (hcon ⟨g1, g5, g6⟩).2.2
        have hn := Set.ncard_lt_ncard hsub hfin
        rw [abs_of_neg (by linarith)] at hc
        obtain ⟨β, e1, e2, e3, e4, e5⟩ := ih a c ha g1 h0 h00 g5 (by linarith) (by omega) hN1 hlt (fun _ => by linarith [hc.1]) f (by omega)
        exact ⟨β, e1, e2, e3, by linarith, e5⟩
      · rw [if_neg (by simpa using hlt)]
        push Not at hlt
        have hsub : doubles ∩ Set.Ioo c b ⊂ doubles ∩ Set.Ioo a b := by
          refine ⟨fun x hx => ⟨hx.1, g5.trans hx.2.1, hx.2.2⟩, fun hcon => ?_⟩
          exact lt_irrefl _ (hcon ⟨g1, g5, g6⟩).2.1
        have hn := Set.ncard_lt_ncard hsub hfin
        obtain ⟨β, e1, e2, e3, e4, e5⟩ := ih c b g1 hb (by linarith) (by linarith) g6 h1 (by omega) hlt hN2 hN3 f (by omega)
        exact ⟨β, e1, e2, by linarith, e4, e5⟩
    · refine (fun hzero => ?_) (?_ : (doubles ∩ Set.Ioo a b).ncard ≤ n)
      · exact ih a b ha hb h0 h00 hab h1 hzero hN1 hN2 hN3 (f + 1) (by omega)
      · rw [Set.ncard_eq_zero (doubles_finite.inter_of_left _) |>.mpr]
        · omega
        · exact Set.eq_empty_iff_forall_notMem.mpr fun x hx => hex ⟨x, hx.1, hx.2⟩

/-! ### how far the size can change between neighbouring doubles -/

theorem neighbours_close {lo hi : ℝ} (h0 : 0 ≤ lo) (hlt : lo < hi) (h1 : hi ≤ 1) (hn : ∀ x ∈ doubles, ¬ (lo < x ∧ x < hi)) : hi - lo ≤ 2 ^ (-53 : ℤ) := by
  set n := ⌊lo * 2 ^ 53⌋ + 1 with hnd
  have e : (2 : ℝ) ^ (-53 : ℤ) = 1 / 2 ^ 53 := by norm_num
  have f1 := Int.lt_floor_add_one (lo * 2 ^ 53)
  have f2 := Int.floor_le (lo * 2 ^ 53)
  have n0 : 0 ≤ ⌊lo * 2 ^ 53⌋ := Int.floor_nonneg.mpr (by positivity)
  have n1 : ⌊lo * 2 ^ 53⌋ < 2 ^ 53 := by
    rw [Int.floor_lt]; push_cast; nlinarith
  have hmem : (n : ℝ) * 2 ^ (-53 : ℤ) ∈ doubles := ⟨n, -53, by rw [abs_le]; constructor <;> omega, by norm_num, by norm_num, rfl⟩
  have g1 : lo < n * 2 ^ (-53 : ℤ) := by
    rw [e, hnd]; push_cast; rw [mul_one_div, lt_div_iff₀ (by positivity)]; exact f1
  have g2 : (n : ℝ) * 2 ^ (-53 : ℤ) ≤ lo + 2 ^ (-53 : ℤ) := by
    rw [e, hnd]; push_cast
    rw [mul_one_div, div_le_iff₀ (by positivity)]
    have : (lo + 1 / 2 ^ 53) * 2 ^ 53 = lo * 2 ^ 53 + 1 := by ring
    rw [this]; linarith
  have g3 : hi ≤ n * 2 ^ (-53 : ℤ) := by
    by_contra hc
    exact hn _ hmem ⟨g1, not_le.mp hc⟩
  linarith

theorem sum_bounds {α : Type*} (L : List α) (f g : α → ℝ) (c : ℝ) (h : ∀ x ∈ L, g x ≤ c * f x) : (L.map g).sum ≤ c * (L.map f).sum := by
  rw [← list_sum_map_mul, List.map_map]
  exact List.sum_le_sum h

theorem list_abs_sum_le {α : Type*} (L : List α) (f : α → ℝ) : |(L.map f).sum| ≤ (L.map fun x => |f x|).sum := by
  induction L with
  | nil => simp
  | cons a L ih => simp only [List.map_cons, List.sum_cons]; exact (abs_add_le _ _).trans (by gcongr)

theorem list_sum_map_sub' {α : Type*} (L : List α) (f g : α → ℝ) : (L.map fun x => f x - g x).sum = (L.map f).sum - (L.map g).sum := by
  induction L with
  | nil => simp
  | cons a L ih => simp only [List.map_cons, List.sum_cons, ih]; ring

theorem pow_sub_le_aux {x y : ℝ} (x0 : 0 ≤ x) (x1 : x ≤ 1) (y0 : 0 ≤ y) (y1 : y ≤ 1) (k : ℕ) : |x ^ k - y ^ k| ≤ k * |x - y| := by
  induction k with
  | zero => simp
  | succ k ih =>
    have : x ^ (k + 1) - y ^ (k + 1) = x ^ k * (x - y) + y * (x ^ k - y ^ k) := by ring
    rw [this]
    refine (abs_add_le _ _).trans ?_
    rw [abs_mul, abs_mul, abs_of_nonneg (pow_nonneg x0 k), abs_of_nonneg y0]
    have hx := pow_le_one₀ x0 x1 (n := k)
    push_cast
    nlinarith [abs_nonneg (x - y), abs_nonneg (x ^ k - y ^ k)]

/-- Sizes of two weight vectors proportional up to a factor `ρ`. -/
theorem size_close (L : List ℝ) (f g : ℝ → ℝ) (hL : L ≠ []) (hf : ∀ x ∈ L, 0 < f x) (hg : ∀ x ∈ L, 0 < g x) (c ρ : ℝ) (hc : 0 < c) (hρ : 1 ≤ ρ)
    (h1 : ∀ x ∈ L, g x ≤ c * ρ * f x) (h2 : ∀ x ∈ L, c * f x ≤ ρ * g x) :
    |ess (L.map f) - ess (L.map g)| ≤ L.length * (ρ ^ 4 - 1) ∧ |distinct (L.map f) L.length - distinct (L.map g) L.length| ≤ L.length * (ρ ^ 4 - 1) := by
  have hwf : IsWeights (L.map f) := ⟨by simpa using fun x hx => (hf x hx).le, sum_map_pos _ _ hL hf⟩
  have hwg : IsWeights (L.map g) := ⟨by simpa using fun x hx => (hg x hx).le, sum_map_pos _ _ hL hg⟩
  have s1 : (L.map g).sum ≤ c * ρ * (L.map f).sum := sum_bounds L f g _ h1
  have s2 : c * (L.map f).sum ≤ ρ * (L.map g).sum := by
    have := sum_bounds L g f (ρ / c) fun x hx => by rw [div_mul_eq_mul_div, le_div_iff₀ hc]; linarith [h2 x hx]
    rw [div_mul_eq_mul_div, le_div_iff₀ hc] at this
    linarith
  have pf := hwf.2
  have pg := hwg.2
  have ρ0 : 0 < ρ := by linarith
  have q1 : ((L.map g).map (· ^ 2)).sum ≤ (c * ρ) ^ 2 * ((L.map f).map (· ^ 2)).sum := by
    rw [List.map_map, List.map_map]
    refine sum_bounds L _ _ _ fun x hx => ?_
    simp only [Function.comp]
    rw [← mul_pow]
    exact pow_le_pow_left₀ (hg x hx).le (h1 x hx) 2
  have q2 : c ^ 2 * ((L.map f).map (· ^ 2)).sum ≤ ρ ^ 2 * ((L.map g).map (· ^ 2)).sum := by
    rw [List.map_map, List.map_map]
    have := sum_bounds L (fun x => g x ^ 2) (fun x => f x ^ 2) ((ρ / c) ^ 2) fun x hx => by
      rw [← mul_pow]
      refine pow_le_pow_left₀ (hf x hx).le ?_ 2
      rw [div_mul_eq_mul_div, le_div_iff₀ hc]; linarith [h2 x hx]
    rw [div_pow, div_mul_eq_mul_div, le_div_iff₀ (by positivity)] at this
    simp only [Function.comp_def]
    linarith
  have rp : 1 ≤ ρ ^ 4 := one_le_pow₀ hρ
  constructor
  · have lf := ess_le_length hwf
    have lg := ess_le_length hwg
    have Pf := ess_pos hwf
    have Pg := ess_pos hwg
    rw [List.length_map] at lf lg
    have Qf := list_sumsq_pos _ pf.ne'
    have Qg := list_sumsq_pos _ pg.ne'
    set S := (L.map f).sum
    set T := (L.map g).sum
    set Q := ((L.map f).map (· ^ 2)).sum
    set P := ((L.map g).map (· ^ 2)).sum
    have u1 : ess (L.map g) ≤ ρ ^ 4 * ess (L.map f) := by
      change T ^ 2 / P ≤ ρ ^ 4 * (S ^ 2 / Q)
      rw [← mul_div_assoc, div_le_div_iff₀ Qg Qf]
      have t1 : T ^ 2 ≤ (c * ρ * S) ^ 2 := pow_le_pow_left₀ pg.le s1 2
      calc T ^ 2 * Q ≤ (c * ρ * S) ^ 2 * Q := by gcongr
        _ = (ρ * S) ^ 2 * (c ^ 2 * Q) := by ring
        _ ≤ (ρ * S) ^ 2 * (ρ ^ 2 * P) := by gcongr
        _ = ρ ^ 4 * S ^ 2 * P := by ring
    have u2 : ess (L.map f) ≤ ρ ^ 4 * ess (L.map g) := by
      change S ^ 2 / Q ≤ ρ ^ 4 * (T ^ 2 / P)
      rw [← mul_div_assoc, div_le_div_iff₀ Qf Qg]
      have t1 : (c * S) ^ 2 ≤ (ρ * T) ^ 2 := pow_le_pow_left₀ (by positivity) s2 2
      refine le_of_mul_le_mul_left ?_ (by positivity : 0 < c ^ 2)
      calc c ^ 2 * (S ^ 2 * P) = (c * S) ^ 2 * P := by ring
        _ ≤ (ρ * T) ^ 2 * ((c * ρ) ^ 2 * Q) := by gcongr
        _ = c ^ 2 * (ρ ^ 4 * T ^ 2 * Q) := by ring
    rw [abs_le]
    constructor <;> nlinarith
  · unfold distinct
    simp only [List.map_map]
    set S := (L.map f).sum
    set T := (L.map g).sum
    set k := L.length
    have key : ∀ x ∈ L, |(1 - (1 - f x / S) ^ k) - (1 - (1 - g x / T) ^ k)| ≤ k * (ρ ^ 4 - 1) * (f x / S) := by
      intro x hx
      have fx := hf x hx
      have gx := hg x hx
      have a1 : f x ≤ S := by
        simpa using List.single_le_sum (by simpa using fun y hy => (hf y hy).le) (f x) (List.mem_map_of_mem hx)
      have a2 : g x ≤ T := by
        simpa using List.single_le_sum (by simpa using fun y hy => (hg y hy).le) (g x) (List.mem_map_of_mem hx)
      set p := f x / S with hp
      set q := g x / T with hq
      have p0 : 0 < p := by positivity
      have q0 : 0 < q := by positivity
      have p1 : p ≤ 1 := by rw [hp, div_le_one pf]; exact a1
      have q1 : q ≤ 1 := by rw [hq, div_le_one pg]; exact a2
      have v1 : q ≤ ρ ^ 2 * p := by
        rw [hp, hq, ← mul_div_assoc, div_le_div_iff₀ pg pf]
        refine le_of_mul_le_mul_left ?_ hc
        calc c * (g x * S) = g x * (c * S) := by ring
          _ ≤ (c * ρ * f x) * (ρ * T) := by gcongr; exact h1 x hx
          _ = c * (ρ ^ 2 * f x * T) := by ring
      have v2 : p ≤ ρ ^ 2 * q := by
        rw [hp, hq, ← mul_div_assoc, div_le_div_iff₀ pf pg]
        refine le_of_mul_le_mul_left ?_ hc
        calc c * (f x * T) = (c * f x) * T := by ring
          _ ≤ (ρ * g x) * (c * ρ * S) := mul_le_mul (h2 x hx) s1 pg.le (by positivity)
          _ = c * (ρ ^ 2 * g x * S) := by ring
      have r2 : 1 ≤ ρ ^ 2 := one_le_pow₀ hρ
      have r4 : ρ ^ 2 ≤ ρ ^ 4 := pow_le_pow_right₀ hρ (by norm_num)
      have hpq : |p - q| ≤ (ρ ^ 4 - 1) * p := by
        rw [abs_le]
        constructor
        · nlinarith
        · rcases le_total q p with hle | hle
          · nlinarith
          · nlinarith
      have hpow : |(1 - p) ^ k - (1 - q) ^ k| ≤ k * |p - q| := by
        have := pow_sub_le_aux (x := 1 - p) (y := 1 - q) (by linarith) (by linarith) (by linarith) (by linarith) k
        rwa [show (1 - p) - (1 - q) = q - p by ring, abs_sub_comm q p] at this
      have : (1 - (1 - p) ^ k) - (1 - (1 - q) ^ k) = -((1 - p) ^ k - (1 - q) ^ k) := by ring
      rw [this, abs_neg]
      calc _ ≤ k * |p - q| := hpow
        _ ≤ k * ((ρ ^ 4 - 1) * p) := by gcongr
        _ = _ := by ring
    have tot : (L.map fun x => f x / S).sum = 1 := by
      have := sum_normalized pf.ne'
      rwa [List.map_map] at this
    have hs : (L.map ((fun x => 1 - (1 - x / S) ^ k) ∘ f)).sum - (L.map ((fun x => 1 - (1 - x / T) ^ k) ∘ g)).sum
        = (L.map fun x => (1 - (1 - f x / S) ^ k) - (1 - (1 - g x / T) ^ k)).sum := by
      exact (list_sum_map_sub' L _ _).symm
    rw [hs]
    calc _ ≤ (L.map fun x => |(1 - (1 - f x / S) ^ k) - (1 - (1 - g x / T) ^ k)|).sum := list_abs_sum_le _ _
      _ ≤ (k * (ρ ^ 4 - 1)) * (L.map fun x => f x / S).sum := sum_bounds L _ _ _ key
      _ = _ := by rw [tot, mul_one]

/-- The size changes little if the log-likelihoods do not spread too far. -/
theorem gentle_of_spread (m : Metric) {h : List Stage} {k : ℕ} (hr : Rect h k) (N R b : ℝ) (hN : 0 < N) (hb : 0 ≤ b) (hM : N ≤ (allLogl h).length)
    (hR : ∀ l ∈ allLogl h, ∀ l' ∈ allLogl h, |l - l'| ≤ R) (hRM : R * (allLogl h).length ≤ 2 ^ 43 * N) : Gentle (sizeAt m h) N b := by
  intro lo _ hi _ hlo hlt hhi hn
  have hΔ := neighbours_close (by linarith) hlt hhi hn
  set L := allLogl h with hL
  have hne : L ≠ [] := hr.allLogl_ne
  obtain ⟨l0, hl0⟩ := List.exists_mem_of_ne_nil _ hne
  set Δ := hi - lo with hΔd
  have hΔ0 : 0 < Δ := by linarith
  have R0 : 0 ≤ R := (abs_nonneg _).trans (hR l0 hl0 l0 hl0)
  have M0 : (0 : ℝ) < L.length := length_pos_real hne
  have rel : ∀ l, weight h hi l = Real.exp (l * Δ) * weight h lo l := by
    intro l
    unfold weight
    rw [← mul_div_assoc, ← Real.exp_add, hΔd]
    congr 2
    ring
  have key := size_close L (weight h lo) (weight h hi) hne (fun x _ => weight_pos h hr.1 _ _) (fun x _ => weight_pos h hr.1 _ _)
    (Real.exp (l0 * Δ)) (Real.exp (R * Δ)) (Real.exp_pos _) (Real.one_le_exp (by positivity)) (fun l hl => by
      rw [rel, ← Real.exp_add]
      have := (abs_le.mp (hR l hl l0 hl0)).2
      have w := weight_pos h hr.1 lo l
      gcongr
      nlinarith) (fun l hl => by
      rw [rel, ← mul_assoc, ← Real.exp_add]
      have := (abs_le.mp (hR l hl l0 hl0)).1
      have w := weight_pos h hr.1 lo l
      gcongr
      nlinarith)
  have e53 : (2 : ℝ) ^ (-53 : ℤ) = 1 / 2 ^ 53 := by norm_num
  rw [e53] at hΔ
  have x1 : R * L.length * Δ ≤ 2 ^ 43 * N * (1 / 2 ^ 53) := by gcongr
  have bound : L.length * (Real.exp (R * Δ) ^ 4 - 1) < 0.01 * N := by
    rw [← Real.exp_nat_mul]
    push_cast
    set x := 4 * (R * Δ) with hx
    have x0 : 0 ≤ x := by positivity
    have xM : x * L.length ≤ N / 256 := by rw [hx]; linarith
    have xle : x ≤ 1 / 256 := by
      by_contra hc
      push Not at hc
      nlinarith
    have hexp : Real.exp x - 1 ≤ 2 * x := by
      have := Real.abs_exp_sub_one_le (x := x) (by rw [abs_of_nonneg x0]; linarith)
      rw [abs_of_nonneg x0] at this
      exact (le_abs_self _).trans this
    nlinarith
  cases m with
  | ess => exact (key.1.trans_lt bound)
  | uss =>
    have := key.2.trans_lt bound
    simpa [sizeAt, ussAt, weights] using this

/-- The last stored temperature and evidence, as the search reads them. -/
theorem chooseBetaR_start (r : ℝ → ℝ) (past : Cols d (List B) List) (h : List Stage) (k : ℕ) (hr : Rect h k) (hh : Holds past h)
    (m : Metric) (N b z : ℝ) (hlast : h.getLast?.map (fun s => (s.beta, s.logz)) = some (b, z)) (fuel : ℕ) :
    chooseBetaR r past m (fin N) fuel = (if sizeAt m h b ≤ N then .ok (fin b, fin z, fin (sizeAt m h b))
      else if N ≤ sizeAt m h 1 then .ok (fin 1, fin (Real.log (totalWeight h 1 / (allLogl h).length)), fin (sizeAt m h 1))
      else do
        let (beta, ess) ← bisectR r past m (fin N) fuel (fin b) (fin 1)
        let (_, logz) ← computeLogwLogz past beta
        return (beta, logz, ess)) := by
  obtain ⟨s, hs, hs2⟩ := Option.map_eq_some_iff.mp hlast
  simp only [Prod.mk.injEq] at hs2
  have l1 : getAt past.beta (-1) = .ok (fin b) := by
    apply getAt_neg_one
    rw [hh.2.1, List.getLast?_map, hs]; simp [hs2.1]
  have l2 : getAt past.logz (-1) = .ok (fin z) := by
    apply getAt_neg_one
    rw [hh.2.2, List.getLast?_map, hs]; simp [hs2.2]
  simp only [chooseBetaR, l1, l2, essAt_fin past h k hr hh, computeLogwLogz_fin past h k hr hh, bind, Except.bind, pure,
    Except.pure, ge_iff_le, F.fin_le]

theorem size_le_length (m : Metric) {h : List Stage} {k : ℕ} (hr : Rect h k) (β : ℝ) : sizeAt m h β ≤ (allLogl h).length := by
  have hw := weights_isWeights hr β
  have hl : (weights h β).length = (allLogl h).length := by simp [weights]
  cases m with
  | ess =>
    have := ess_le_length hw
    rwa [hl] at this
  | uss =>
    change ((weights h β).map fun x => 1 - (1 - x / (weights h β).sum) ^ (allLogl h).length).sum ≤ _
    have hle : ∀ x ∈ weights h β, 1 - (1 - x / (weights h β).sum) ^ (allLogl h).length ≤ 1 := by
      intro x hx
      have : x ≤ (weights h β).sum := List.single_le_sum hw.1 x hx
      have : x / (weights h β).sum ≤ 1 := by rw [div_le_one hw.2]; exact this
      have := pow_nonneg (by linarith : 0 ≤ 1 - x / (weights h β).sum) (allLogl h).length
      linarith
    have := List.sum_le_sum hle
    simpa [hl] using this

/-- C104 (partial): in double precision the temperature search ends, with the outcome of C22, if the stored log-likelihoods do not spread further than
`2 ^ 43` times the target over the number of stored particles. Missing: the property itself has no such condition, and is false without one
(`Demo.C104_not_always`). -/
theorem C104_search_ends_partial {r : ℝ → ℝ} (hd : NearestDouble r) (past : Cols d (List B) List) (h : List Stage) (k : ℕ) (hr : Rect h k)
    (hh : Holds past h) (m : Metric) (N : ℝ) (hN : 0 < N) (b z : ℝ) (hb : b ∈ doubles) (hb0 : 0 ≤ b) (hb1 : b ≤ 1)
    (hlast : h.getLast?.map (fun s => (s.beta, s.logz)) = some (b, z)) (R : ℝ)
    (hR : ∀ l ∈ allLogl h, ∀ l' ∈ allLogl h, |l - l'| ≤ R) (hRM : R * (allLogl h).length ≤ 2 ^ 43 * N) :
    ∃ fuel₀, ∀ fuel, fuel₀ ≤ fuel → ∃ β logz : ℝ,
      chooseBetaR r past m (fin N) fuel = .ok (fin β, fin logz, fin (sizeAt m h β)) ∧ β ∈ doubles ∧
      ((β = b ∧ sizeAt m h b ≤ N ∧ logz = z) ∨
       (β = 1 ∧ N < sizeAt m h b ∧ N ≤ sizeAt m h 1 ∧ logz = Real.log (totalWeight h 1 / (allLogl h).length)) ∨
       (b ≤ β ∧ β ≤ 1 ∧ sizeAt m h 1 < N ∧ N < sizeAt m h b ∧ |sizeAt m h β - N| < 0.01 * N ∧
        logz = Real.log (totalWeight h β / (allLogl h).length))) := by
  have one_mem : (1 : ℝ) ∈ doubles := ⟨2 ^ 52, -52, by norm_num, by norm_num, by norm_num, by norm_num⟩
  have start := chooseBetaR_start r past h k hr hh m N b z hlast
  by_cases c1 : sizeAt m h b ≤ N
  · exact ⟨0, fun fuel _ => ⟨b, z, by rw [start, if_pos c1], hb, .inl ⟨rfl, c1, rfl⟩⟩⟩
  by_cases c2 : N ≤ sizeAt m h 1
  · exact ⟨0, fun fuel _ => ⟨1, _, by rw [start, if_neg c1, if_pos c2], one_mem, .inr (.inl ⟨rfl, not_le.mp c1, c2, rfl⟩)⟩⟩
  push Not at c1 c2
  have hb1' : b < 1 := lt_of_le_of_ne hb1 (by rintro rfl; linarith)
  have hg := gentle_of_spread m hr N R b hN hb0 (c1.le.trans (size_le_length m hr b)) hR hRM
  refine ⟨(doubles ∩ Set.Ioo b 1).ncard + 1, fun fuel hf => ?_⟩
  obtain ⟨β, e, g1, g2, g3, g4⟩ := bisectR_terminates hd past h k hr hh m N b hg _ b 1 hb one_mem hb0 le_rfl hb1' le_rfl le_rfl c1.le c2
    (fun hc => absurd hc (lt_irrefl _)) fuel hf
  refine ⟨β, _, ?_, g1, .inr (.inr ⟨g2, g3, c2, c1, g4, rfl⟩)⟩
  rw [start, if_neg (not_le.mpr c1), if_neg (not_le.mpr c2), e]
  simp [computeLogwLogz_fin past h k hr hh, bind, Except.bind, pure, Except.pure]

/-- The hypotheses are met, with a target between the two end points. -/
example : ∃ (h : List Stage) (r : ℝ → ℝ), NearestDouble r ∧ Rect h 2 ∧ Holds (storeOf h) h ∧ (0 : ℝ) ∈ doubles ∧
    h.getLast?.map (fun s => (s.beta, s.logz)) = some (0, 0) ∧ sizeAt .ess h 1 < 1.5 ∧ 1.5 < sizeAt .ess h 0 ∧
    (∀ l ∈ allLogl h, ∀ l' ∈ allLogl h, |l - l'| ≤ 10) ∧ (10 : ℝ) * (allLogl h).length ≤ 2 ^ 43 * 1.5 := by
  obtain ⟨r, hr⟩ := exists_nearest
  refine ⟨[⟨0, 0, [0, 10]⟩], r, hr, ⟨by simp, by norm_num, by simp⟩, ⟨rfl, rfl, rfl⟩, ⟨0, -52, by norm_num, by norm_num, by norm_num, by simp⟩,
    by simp, ?_, ?_, ?_, ?_⟩
  · have h1 : (10 : ℝ) + 1 ≤ Real.exp 10 := Real.add_one_le_exp 10
    simp [sizeAt, Spec.essAt, ess, weights, allLogl, weight, mixture]
    rw [div_lt_iff₀ (by positivity)]
    nlinarith
  · simp [sizeAt, Spec.essAt, ess, weights, allLogl, weight, mixture]
    norm_num
  · simp [allLogl]
  · simp [allLogl]; norm_num

/-! ### a search that never ends -/

theorem above_half {x : ℝ} (hx : x ∈ doubles) (h : 0.5 < x) : 0.5 + 2 ^ (-54 : ℤ) ≤ x := by
  obtain ⟨m, e, h1, h2, h3, rfl⟩ := hx
  by_cases he : -54 ≤ e
  · obtain ⟨n, hn⟩ : ∃ n : ℕ, e + 54 = n := ⟨(e + 54).toNat, by omega⟩
    have : e = n + (-54) := by omega
    rw [this, zpow_add₀ (by norm_num), ← mul_assoc, zpow_natCast] at h ⊢
    have e54 : (2 : ℝ) ^ (-54 : ℤ) = 1 / 2 ^ 54 := by norm_num
    rw [e54] at h ⊢
    have h' : ((2 ^ 53 : ℤ) : ℝ) < ((m * 2 ^ n : ℤ) : ℝ) := by
      push_cast
      rw [mul_one_div, lt_div_iff₀ (by positivity)] at h
      norm_num at h ⊢
      linarith
    have h'' : (2 ^ 53 : ℤ) + 1 ≤ m * 2 ^ n := by exact_mod_cast h'
    have h3 : ((2 ^ 53 : ℤ) + 1 : ℝ) ≤ ((m * 2 ^ n : ℤ) : ℝ) := by exact_mod_cast h''
    push_cast at h3
    rw [mul_one_div, le_div_iff₀ (by positivity)]
    norm_num at h3 ⊢
    linarith
  · exfalso
    have e1 : (2 : ℝ) ^ e ≤ 2 ^ (-55 : ℤ) := zpow_le_zpow_right₀ (by norm_num) (by omega)
    have m1 : (m : ℝ) ≤ 2 ^ 53 := by exact_mod_cast (abs_le.mp h1).2
    have : (m : ℝ) * 2 ^ e ≤ 2 ^ 53 * 2 ^ (-55 : ℤ) := by
      have : (0 : ℝ) < 2 ^ e := by positivity
      nlinarith
    norm_num at this h
    linarith

/-- The search never ends if the size jumps just above the last temperature. -/
theorem bisectR_stuck {r : ℝ → ℝ} (hd : NearestDouble r) (past : Cols d (List B) List) (h : List Stage) (k : ℕ) (hr : Rect h k) (hh : Holds past h)
    (m : Metric) (N : ℝ) (h1 : 1.01 * N ≤ sizeAt m h 0.5) (h0 : 0 < N)
    (h2 : ∀ x, 0.5 + 2 ^ (-54 : ℤ) ≤ x → x ≤ 1 → sizeAt m h x ≤ 0.99 * N) (fuel : ℕ) :
    ∀ b ∈ doubles, 0.5 < b → b ≤ 1 → bisectR r past m (fin N) fuel (fin 0.5) (fin b) = .error .diverged := by
  have half_mem : (0.5 : ℝ) ∈ doubles := ⟨2 ^ 51, -52, by norm_num, by norm_num, by norm_num, by norm_num⟩
  have mid_mem : (0.75 : ℝ) ∈ doubles := ⟨3 * 2 ^ 50, -52, by norm_num, by norm_num, by norm_num, by norm_num⟩
  induction fuel with
  | zero => intro b _ _ _; rfl
  | succ n ih =>
    intro b hb hb1 hb2
    obtain ⟨g1, g2, g3, g4⟩ := midpoint hd half_mem hb (by norm_num) hb1 hb2
    simp only [bisectR, midR_fin, essAt_fin past h k hr hh]
    set c := r (r (b + 0.5) * 0.5)
    have hc1 : c ≠ 1 := by
      rcases eq_or_lt_of_le hb2 with e | e
      · have := (g4 ⟨0.75, mid_mem, by norm_num, by rw [e]; norm_num⟩).2
        linarith
      · linarith
    rcases eq_or_lt_of_le g2 with e | e
    · rw [← e] at hc1 ⊢
      rw [if_neg, if_neg]
      · exact ih b hb hb1 hb2
      · simp; linarith
      · simp only [fin_sub, F.abs_fin, fin_mul, F.fin_lt, fin_feq, not_or]
        rw [abs_of_nonneg (by linarith)]
        exact ⟨by linarith, hc1⟩
    · have hs := h2 c (above_half g1 e) (g3.trans hb2)
      rw [if_neg, if_pos]
      · exact ih c g1 e (g3.trans hb2)
      · simp; linarith
      · simp only [fin_sub, F.abs_fin, fin_mul, F.fin_lt, fin_feq, not_or]
        rw [abs_of_nonpos (by linarith)]
        exact ⟨by linarith, hc1⟩

/-- The warm-up stage of the example: two particles, one four times as likely as the other. -/
noncomputable def Demo.h104 : List Stage := [⟨0, 0, [0, 2 * Real.log 2]⟩]

/-- The next stage: at the temperature and evidence the search returned, with one particle whose log-likelihood is `2 ^ 64`. -/
noncomputable def Demo.s104 : Stage := ⟨0.5, Real.log 1.5, [0, 2 ^ 64]⟩

theorem Demo.exp_two_log (x : ℝ) : Real.exp (2 * Real.log 2 * x) = 4 ^ x := by
  rw [Real.rpow_def_of_pos (by norm_num), show (4 : ℝ) = 2 ^ 2 by norm_num, Real.log_pow]
  norm_num

theorem Demo.four_half : (4 : ℝ) ^ (0.5 : ℝ) = 2 := by
  rw [show (0.5 : ℝ) = 1 / 2 by norm_num, ← Real.sqrt_eq_rpow, show (4 : ℝ) = 2 ^ 2 by norm_num, Real.sqrt_sq (by norm_num)]

theorem Demo.size104 (x : ℝ) : sizeAt .ess Demo.h104 x = (1 + 4 ^ x) ^ 2 / (1 + (4 ^ x) ^ 2) := by
  simp [sizeAt, Spec.essAt, ess, weights, allLogl, weight, mixture, Demo.h104, Demo.exp_two_log]

/-- C104 does not hold for every history: the search of the first iteration returns 0.5 after one halving; if a particle then moves to a point of very large
likelihood, the search of the next iteration never ends. -/
theorem Demo.C104_not_always {r : ℝ → ℝ} (hd : NearestDouble r) :
    (∀ fuel, chooseBetaR r (storeOf Demo.h104) .ess (fin 1.8) (fuel + 1) = .ok (fin 0.5, fin (Real.log 1.5), fin 1.8)) ∧
    ∀ fuel, chooseBetaR r (storeOf (Demo.h104 ++ [Demo.s104])) .ess (fin 1.8) fuel = .error .diverged := by
  have one_mem : (1 : ℝ) ∈ doubles := ⟨2 ^ 52, -52, by norm_num, by norm_num, by norm_num, by norm_num⟩
  have half_mem : (0.5 : ℝ) ∈ doubles := ⟨2 ^ 51, -52, by norm_num, by norm_num, by norm_num, by norm_num⟩
  constructor
  · intro fuel
    have hr : Rect Demo.h104 2 := ⟨by simp [Demo.h104], by norm_num, by simp [Demo.h104]⟩
    have hh : Holds (storeOf Demo.h104) Demo.h104 := ⟨rfl, rfl, rfl⟩
    have s1 : sizeAt .ess Demo.h104 1 = 25 / 17 := by rw [Demo.size104]; norm_num
    have s0 : sizeAt .ess Demo.h104 0 = 2 := by rw [Demo.size104]; norm_num
    have sh : sizeAt .ess Demo.h104 0.5 = 1.8 := by rw [Demo.size104, Demo.four_half]; norm_num
    have tw : totalWeight Demo.h104 0.5 = 3 := by
      have := Demo.four_half
      simp [totalWeight, weight, allLogl, mixture, Demo.h104, Demo.exp_two_log]
      linarith
    rw [chooseBetaR_start r _ Demo.h104 2 hr hh .ess 1.8 0 0 (by simp [Demo.h104]), if_neg (by rw [s0]; norm_num), if_neg (by rw [s1]; norm_num)]
    simp only [bisectR, midR_fin, essAt_fin _ _ 2 hr hh]
    rw [add_zero, nearest_fix hd one_mem (by norm_num), one_mul, nearest_fix hd half_mem (by norm_num), sh]
    rw [if_pos (by left; simp; norm_num)]
    simp only [computeLogwLogz_fin _ _ 2 hr hh, tw, bind, Except.bind, pure, Except.pure]
    congr 5
    simp [allLogl, Demo.h104]
    norm_num
  · intro fuel
    set h := Demo.h104 ++ [Demo.s104] with hdef
    have hr : Rect h 2 := ⟨by simp [h], by norm_num, by simp [h, Demo.h104, Demo.s104]⟩
    have hh : Holds (storeOf h) h := ⟨rfl, rfl, rfl⟩
    set E := Real.exp (2 ^ 64 * 0.5) with hE
    have E1 : 1000 ≤ E := by
      have := Real.add_one_le_exp ((2 : ℝ) ^ 64 * 0.5)
      rw [← hE] at this
      norm_num at this ⊢
      linarith
    have hE15 : E / 1.5 = E * (2 / 3) := by rw [div_eq_mul_inv]; norm_num
    have size : ∀ x, sizeAt .ess h x = (1.2 + 6 / 7 * 4 ^ x + 1.2 + Real.exp (2 ^ 64 * x) / (0.5 * (1 + E / 1.5))) ^ 2
        / (1.2 ^ 2 + (6 / 7 * 4 ^ x) ^ 2 + 1.2 ^ 2 + (Real.exp (2 ^ 64 * x) / (0.5 * (1 + E / 1.5))) ^ 2) := by
      intro x
      have m0 : mixture h 0 = 5 / 6 := by
        simp only [mixture, h, Demo.h104, Demo.s104, List.cons_append, List.nil_append, List.map_cons, List.map_nil, List.sum_cons, List.sum_nil,
          Real.exp_sub, Real.exp_log (by norm_num : (0 : ℝ) < 1.5), zero_mul, Real.exp_zero]
        norm_num
      have m1 : mixture h (2 * Real.log 2) = 7 / 6 := by
        have := Demo.four_half
        simp only [mixture, h, Demo.h104, Demo.s104, List.cons_append, List.nil_append, List.map_cons, List.map_nil, List.sum_cons, List.sum_nil,
          Real.exp_sub, Real.exp_log (by norm_num : (0 : ℝ) < 1.5), Demo.exp_two_log, this]
        norm_num
      have m2 : mixture h (2 ^ 64) = 0.5 * (1 + E / 1.5) := by
        simp only [mixture, h, Demo.h104, Demo.s104, List.cons_append, List.nil_append, List.map_cons, List.map_nil, List.sum_cons, List.sum_nil,
          Real.exp_sub, Real.exp_log (by norm_num : (0 : ℝ) < 1.5), ← hE]
        norm_num
        ring
      have hw : weights h x = [1.2, 6 / 7 * 4 ^ x, 1.2, Real.exp (2 ^ 64 * x) / (0.5 * (1 + E / 1.5))] := by
        have ha : allLogl h = [0, 2 * Real.log 2, 0, 2 ^ 64] := by simp [allLogl, h, Demo.h104, Demo.s104]
        simp only [weights, ha, List.map_cons, List.map_nil, weight, m0, m1, m2, Demo.exp_two_log, zero_mul, Real.exp_zero]
        norm_num
        ring
      simp only [sizeAt, Spec.essAt, ess, hw, List.map_cons, List.map_nil, List.sum_cons, List.sum_nil]
      congr 1 <;> ring
    have low : 1.01 * 1.8 ≤ sizeAt .ess h 0.5 := by
      rw [size, Demo.four_half, ← hE]
      have w : E / (0.5 * (1 + E / 1.5)) ≤ 3 := by rw [div_le_iff₀ (by positivity), hE15]; linarith
      have w' : 2.9 ≤ E / (0.5 * (1 + E / 1.5)) := by rw [le_div_iff₀ (by positivity), hE15]; linarith
      generalize E / (0.5 * (1 + E / 1.5)) = W at *
      rw [le_div_iff₀ (by positivity)]
      nlinarith
    have high : ∀ x, 0.5 + 2 ^ (-54 : ℤ) ≤ x → x ≤ 1 → sizeAt .ess h x ≤ 0.99 * 1.8 := by
      intro x hx hx1
      rw [size]
      have p1 : (4 : ℝ) ^ x ≤ 4 := by
        have := Real.rpow_le_rpow_of_exponent_le (by norm_num : (1 : ℝ) ≤ 4) hx1
        simpa using this
      have p0 : (0 : ℝ) < 4 ^ x := by positivity
      have big : 1000 * E ≤ Real.exp (2 ^ 64 * x) := by
        have : Real.exp (2 ^ 10) * E ≤ Real.exp (2 ^ 64 * x) := by
          rw [hE, ← Real.exp_add]
          apply Real.exp_le_exp.mpr
          norm_num at hx ⊢
          linarith
        have h10 : (1000 : ℝ) ≤ Real.exp (2 ^ 10) := (by norm_num : (1000 : ℝ) ≤ 2 ^ 10 + 1).trans (Real.add_one_le_exp _)
        nlinarith
      have w : 1000 ≤ Real.exp (2 ^ 64 * x) / (0.5 * (1 + E / 1.5)) := by
        rw [le_div_iff₀ (by positivity), hE15]
        refine le_trans ?_ big
        linarith
      generalize Real.exp (2 ^ 64 * x) / (0.5 * (1 + E / 1.5)) = W at *
      generalize (4 : ℝ) ^ x = y at *
      rw [div_le_iff₀ (by positivity)]
      nlinarith
    have N1 := high 1 (by norm_num) le_rfl
    rw [chooseBetaR_start r _ h 2 hr hh .ess 1.8 0.5 (Real.log 1.5) (by simp [h, Demo.s104]), if_neg (by linarith), if_neg (by linarith),
      bisectR_stuck hd _ h 2 hr hh .ess 1.8 low (by norm_num) high fuel 1 one_mem (by norm_num) le_rfl]
    rfl

/-! ### without rounding this is the search of C22 -/

theorem bisectR_id (past : Cols d (List B) List) (m : Metric) (nEff : F) (n : ℕ) : ∀ a b, bisectR id past m nEff n a b = bisect past m nEff n a b := by
  have hid : ∀ v : F, F.rounded id v = v := fun v => by cases v <;> rfl
  induction n with
  | zero => intro a b; rfl
  | succ n ih =>
    intro a b
    simp only [bisectR, bisect, hid, ih]
    cases essAt past m ((b + a) * fin 0.5) <;> rfl

theorem chooseBetaR_id (past : Cols d (List B) List) (m : Metric) (nEff : F) (fuel : ℕ) :
    chooseBetaR id past m nEff fuel = chooseBeta past m nEff fuel := by
  simp only [chooseBetaR, chooseBeta, bisectR_id]

end Poco
