import Verif.Lemmas.Flaky

/-! Step budgets: a computation that returns within a budget returns the same with a larger one. -/

namespace Poco
open F Spec

variable {d : ℕ} {B Φ : Type}

theorem whileFuel_mono {cond : F → Prop} [DecidablePred cond] {body : F → F} {y : F} (n : ℕ) : ∀ {m : ℕ} {x : F}, n ≤ m →
    whileFuel cond body n x = some y → whileFuel cond body m x = some y := by
  induction n with
  | zero =>
    intro m x _ h
    unfold whileFuel at h
    split_ifs at h with hc
    rw [whileFuel_false hc]; exact h
  | succ n ih =>
    intro m x hm h
    by_cases hc : cond x
    · obtain ⟨k, rfl⟩ : ∃ k, m = k + 1 := ⟨m - 1, by omega⟩
      rw [whileFuel_true hc] at h ⊢
      exact ih (by omega) h
    · rw [whileFuel_false hc] at h ⊢; exact h

theorem periodicEntry_mono {n m : ℕ} (hm : n ≤ m) {low high x y : F} (h : periodicEntry n low high x = some y) :
    periodicEntry m low high x = some y := by
  unfold periodicEntry at h ⊢
  obtain ⟨z, h1, h2⟩ := Option.bind_eq_some_iff.mp h
  exact Option.bind_eq_some_iff.mpr ⟨z, whileFuel_mono n hm h1, whileFuel_mono n hm h2⟩

theorem reflectiveEntry_mono {n m : ℕ} (hm : n ≤ m) {low high x y : F} (h : reflectiveEntry n low high x = some y) :
    reflectiveEntry m low high x = some y := by
  unfold reflectiveEntry at h ⊢
  obtain ⟨z, h1, h2⟩ := Option.bind_eq_some_iff.mp h
  exact Option.bind_eq_some_iff.mpr ⟨z, whileFuel_mono n hm h1, whileFuel_mono n hm h2⟩

theorem applyCoords_mono {f g : Fin d → F → Option F} (hfg : ∀ i v w, f i v = some w → g i v = some w) (is : List (Fin d)) :
    ∀ {x y : Pt d}, applyCoords f is x = some y → applyCoords g is x = some y := by
  induction is with
  | nil => intro x y h; exact h
  | cons i is ih =>
    intro x y h
    unfold applyCoords at h ⊢
    cases hv : f i (x i) with
    | none => rw [hv] at h; cases h
    | some v =>
      rw [hv] at h
      rw [hfg i _ v hv]
      exact ih h

theorem Scaler.periodicRow_mono {s : Scaler d} {n m : ℕ} (hm : n ≤ m) {x y : Pt d} (h : s.periodicRow n x = some y) :
    s.periodicRow m x = some y := by
  unfold Scaler.periodicRow at h ⊢
  cases hs : s.periodic with
  | none => rw [hs] at h; exact h
  | some is =>
    rw [hs] at h
    exact applyCoords_mono (fun i v w hv => periodicEntry_mono hm hv) is h

theorem Scaler.reflectiveRow_mono {s : Scaler d} {n m : ℕ} (hm : n ≤ m) {x y : Pt d} (h : s.reflectiveRow n x = some y) :
    s.reflectiveRow m x = some y := by
  unfold Scaler.reflectiveRow at h ⊢
  cases hs : s.reflective with
  | none => rw [hs] at h; exact h
  | some is =>
    rw [hs] at h
    exact applyCoords_mono (fun i v w hv => reflectiveEntry_mono hm hv) is h

theorem Scaler.boundaryRow_mono {s : Scaler d} {n m : ℕ} (hm : n ≤ m) {x y : Pt d} (h : s.boundaryRow n x = some y) :
    s.boundaryRow m x = some y := by
  unfold Scaler.boundaryRow at h ⊢
  cases h1 : s.periodic <;> cases h2 : s.reflective <;> rw [h1, h2] at h
  · exact h
  · exact Scaler.reflectiveRow_mono hm h
  · exact Scaler.periodicRow_mono hm h
  · obtain ⟨z, g1, g2⟩ := Option.bind_eq_some_iff.mp h
    exact Option.bind_eq_some_iff.mpr ⟨z, Scaler.periodicRow_mono hm g1, Scaler.reflectiveRow_mono hm g2⟩

theorem candidate_fuel {e : McmcEnv d B} {n m : ℕ} (hm : n ≤ m) {p : Pt d} {c : Walker d B} (h : candidate e n p = .ok c) :
    candidate e m p = .ok c := by
  unfold candidate at h ⊢
  dsimp only at h ⊢
  refine bind_mono (fun _ h => h) (fun v h => ?_) h
  obtain ⟨x, ld⟩ := v
  dsimp only at h ⊢
  by_cases hc : (e.scaler.periodic.isSome || e.scaler.reflective.isSome) = true
  · rw [if_pos hc] at h ⊢
    cases hx : e.scaler.boundaryRow n x with
    | none => rw [hx] at h; cases h
    | some y =>
      rw [hx] at h
      rw [Scaler.boundaryRow_mono hm hx]
      exact h
  · rw [if_neg hc] at h ⊢
    exact h

theorem mapM_fuel {α β : Type} {f g : α → Except PyErr β} (hfg : ∀ a b, f a = .ok b → g a = .ok b) (l : List α) :
    ∀ {r : List β}, l.mapM f = .ok r → l.mapM g = .ok r := by
  induction l with
  | nil => intro r h; exact h
  | cons a l ih =>
    intro r h
    rw [List.mapM_cons] at h ⊢
    refine bind_mono (fun v hv => hfg a v hv) (fun v h => ?_) h
    exact bind_mono (fun _ h => ih h) (fun _ h => h) h

theorem mcmcStep_fuel {e : McmcEnv d B} {n m : ℕ} (hm : n ≤ m) {rnd : ℕ → Draw d} {i : ℕ} {st st' : McmcState d B}
    (h : mcmcStep e n rnd i st = .ok st') : mcmcStep e m rnd i st = .ok st' := by
  unfold mcmcStep at h ⊢
  exact bind_mono (fun _ h => mapM_fuel (fun _ _ h => candidate_fuel hm h) _ h) (fun _ h => h) h

theorem mcmcLoop_fuel {e : McmcEnv d B} {n m : ℕ} (hm : n ≤ m) {rnd : ℕ → ℕ → Draw d} (q : ℕ) : ∀ {i : ℕ} {st : McmcState d B} {r : McmcState d B × ℕ},
    e.nMax - i = q → mcmcLoop e n rnd i st = .ok r → mcmcLoop e m rnd i st = .ok r := by
  induction q using Nat.strong_induction_on with
  | _ q ih =>
    intro i st r hq h
    rw [mcmcLoop] at h ⊢
    cases hs : mcmcStep e n (rnd (i + 1)) (i + 1) st with
    | error x => rw [hs] at h; cases h
    | ok st' =>
      rw [hs] at h
      rw [mcmcStep_fuel hm hs]
      simp only at h ⊢
      split_ifs at h ⊢ with h1 h2
      · exact h
      · exact h
      · exact ih (e.nMax - (i + 1)) (by omega) rfl h

theorem mcmc_fuel {e : McmcEnv d B} {n m : ℕ} (hm : n ≤ m) {rnd : ℕ → ℕ → Draw d} {ws : List (Walker d B)} {r : McmcResult d B}
    (h : mcmc e n rnd ws = .ok r) : mcmc e m rnd ws = .ok r := by
  unfold mcmc at h ⊢
  cases hl : mcmcLoop e n rnd 0 (mcmcInit e ws) with
  | error x => rw [hl] at h; cases h
  | ok q =>
    rw [hl] at h
    rw [mcmcLoop_fuel hm _ rfl hl]
    exact h

theorem bisect_fuel {past : Cols d (List B) List} {M : Metric} {N : F} (n : ℕ) : ∀ {m : ℕ} {a b : F} {r : F × F}, n ≤ m →
    bisect past M N n a b = .ok r → bisect past M N m a b = .ok r := by
  induction n with
  | zero => intro m a b r _ h; cases h
  | succ n ih =>
    intro m a b r hm h
    obtain ⟨k, rfl⟩ : ∃ k, m = k + 1 := ⟨m - 1, by omega⟩
    unfold bisect at h ⊢
    dsimp only at h ⊢
    cases he : essAt past M ((b + a) * fin 0.5) with
    | error x => rw [he] at h; cases h
    | ok v =>
      rw [he] at h
      simp only at h ⊢
      split_ifs at h ⊢ with h1 h2
      · exact h
      · exact ih (by omega) h
      · exact ih (by omega) h

theorem chooseBeta_fuel {past : Cols d (List B) List} {M : Metric} {N : F} {n m : ℕ} (hm : n ≤ m) {r : F × F × F}
    (h : chooseBeta past M N n = .ok r) : chooseBeta past M N m = .ok r := by
  unfold chooseBeta at h ⊢
  refine bind_mono (fun _ h => h) (fun b h => ?_) h
  refine bind_mono (fun _ h => h) (fun e1 h => ?_) h
  refine bind_mono (fun _ h => h) (fun e2 h => ?_) h
  split_ifs at h ⊢ with h1 h2
  · exact h
  · exact h
  · exact bind_mono (fun _ h => bisect_fuel n hm h) (fun _ h => h) h

theorem reweight_fuel {e : SamplerEnv d B Φ} {n m : ℕ} (hm : n ≤ m) {s : Sampler d B Φ} {c : Cur d B} {r : Sampler d B Φ × Cur d B}
    (h : reweight e n s c = .ok r) : reweight e m s c = .ok r := by
  unfold reweight at h ⊢
  exact bind_mono (fun _ h => chooseBeta_fuel hm h) (fun _ h => h) h

theorem mutate_fuel {e : SamplerEnv d B Φ} {rnd : Rnd d Φ} {n m : ℕ} (hm : n ≤ m) {s : Sampler d B Φ} {c : Cur d B} {r : Sampler d B Φ × Cur d B}
    (h : mutate e rnd n s c = .ok r) : mutate e rnd m s c = .ok r := by
  unfold mutate at h ⊢
  refine bind_mono (fun _ h => h) (fun _ h => ?_) h
  refine bind_mono (fun _ h => h) (fun _ h => ?_) h
  exact bind_mono (fun _ h => mcmc_fuel hm h) (fun _ h => h) h

/-- An iteration of the main loop that returns within a budget returns the same with a larger one. -/
theorem smcStep_fuel {e : SamplerEnv d B Φ} {rnd : Rnd d Φ} {n m : ℕ} (hm : n ≤ m) {s s' : Sampler d B Φ}
    (h : smcStep e rnd n s = .ok s') : smcStep e rnd m s = .ok s' := by
  unfold smcStep at h ⊢
  refine bind_mono (fun _ h => h) (fun _ h => ?_) h
  refine bind_mono (fun _ h => reweight_fuel hm h) (fun _ h => ?_) h
  refine bind_mono (fun _ h => h) (fun _ h => ?_) h
  refine bind_mono (fun _ h => h) (fun _ h => ?_) h
  exact bind_mono (fun _ h => mutate_fuel hm h) (fun _ h => h) h

end Poco
