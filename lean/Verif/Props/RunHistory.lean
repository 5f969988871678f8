import Verif.Props.Run

/-! Histories of runs: state files, resuming, iteration numbers, call counts, warm-up (C27, C55, C56, C58, C65, C72). -/

namespace Poco
open F Spec

variable {d : ℕ} {B Φ : Type}

section
variable {e : SamplerEnv d B Φ} {rnd : Rnd d Φ}

/-! ### C56: which state files are written -/

/-- The iterations at which a state file is due: after the first, before the last, a multiple of `k` away from the start. -/
def Spec.schedule (k t0 t1 : ℕ) : List ℕ := (List.range' t0 (t1 - t0)).filter fun t => t ≠ t0 ∧ k ∣ t - t0

/-- What is due from iteration `a` on (`a ≥ t0`). -/
def dueFrom (k t0 a n : ℕ) : List ℕ := (List.range' a n).filter fun t => t ≠ t0 ∧ k ∣ t - t0

theorem dueFrom_append (k t0 a m n : ℕ) : dueFrom k t0 a m ++ dueFrom k t0 (a + m) n = dueFrom k t0 a (m + n) := by
  unfold dueFrom
  rw [← List.filter_append, List.range'_append_1]

theorem dueFrom_succ (k t0 a n : ℕ) : dueFrom k t0 a (n + 1) = dueFrom k t0 a 1 ++ dueFrom k t0 (a + 1) n := by
  rw [dueFrom_append, Nat.add_comm 1 n]

/-- The files of a piece of a run are the due ones. -/
def OnSchedule (k t0 : ℕ) (s : Sampler d B Φ) (t : Trace d B Φ) : Prop :=
  ∃ n, t.1.map (·.name) = (dueFrom k t0 s.t n).map SaveName.iter ∧ (∀ sv ∈ t.1, sv.name = .iter sv.state.t) ∧
    ∀ s', t.2 = .ok s' → s'.t = s.t + n

theorem OnSchedule.andThen {k t0 : ℕ} {s : Sampler d B Φ} {t : Trace d B Φ} {f : Sampler d B Φ → Trace d B Φ}
    (h : OnSchedule k t0 s t) (g : ∀ s', t.2 = .ok s' → OnSchedule k t0 s' (f s')) : OnSchedule k t0 s (t.andThen f) := by
  obtain ⟨l, r⟩ := t
  obtain ⟨n, h1, h2, h3⟩ := h
  cases r with
  | error x => exact ⟨n, h1, h2, fun s' hs' => by cases hs'⟩
  | ok s1 =>
    obtain ⟨m, g1, g2, g3⟩ := g s1 rfl
    have e1 : s1.t = s.t + n := h3 s1 rfl
    refine ⟨n + m, ?_, ?_, ?_⟩
    · simp only [Trace.andThen, List.map_append] at h1 g1 ⊢
      rw [h1, g1, ← List.map_append, e1, dueFrom_append]
    · intro sv hsv
      rcases List.mem_append.mp hsv with hsv | hsv
      · exact h2 sv hsv
      · exact g2 sv hsv
    · intro s' hs'
      rw [g3 s' hs', e1, Nat.add_assoc]

theorem OnSchedule.refl (k t0 : ℕ) (s : Sampler d B Φ) : OnSchedule k t0 s ([], .ok s) :=
  ⟨0, by simp [dueFrom], by simp, fun s' hs' => by simp only [Except.ok.injEq] at hs'; rw [← hs']; rfl⟩

/-- The save at the top of a body, together with the body: one iteration. -/
theorem OnSchedule.body {k t0 : ℕ} (hk : 0 < k) {s : Sampler d B Φ} {a : Sampler d B Φ → Except PyErr (Sampler d B Φ)}
    (ha : ∀ s', a s = .ok s' → s'.t = s.t + 1) {f : Sampler d B Φ → Trace d B Φ} (hf : ∀ s', a s = .ok s' → OnSchedule k t0 s' (f s')) :
    OnSchedule k t0 s ((Trace.save (some k) t0 s).andThen fun s => (Trace.lift (a s)).andThen f) := by
  have hd : dueFrom k t0 s.t 1 = if (s.t - t0) % k = 0 ∧ s.t ≠ t0 then [s.t] else [] := by
    simp only [dueFrom, List.range'_one, List.filter_cons, List.filter_nil]
    simp only [Nat.dvd_iff_mod_eq_zero, decide_eq_true_eq, and_comm]
  have hs : Trace.save (some k) t0 s = ((dueFrom k t0 s.t 1).map fun t => ⟨.iter t, s⟩, .ok s) := by
    unfold Trace.save saveNow
    simp only [Nat.pos_iff_ne_zero.mp hk, if_false, hd]
    split_ifs <;> rfl
  rw [hs]
  have hmem : ∀ t ∈ dueFrom k t0 s.t 1, t = s.t := by
    intro t ht
    rw [hd] at ht
    split_ifs at ht
    · simpa using ht
    · simp at ht
  cases hr : a s with
  | error x =>
    refine ⟨1, ?_, ?_, fun s' hs' => ?_⟩
    · simp [Trace.andThen, Trace.lift, hr, Function.comp_def]
    · intro sv hsv
      simp only [Trace.andThen, Trace.lift, hr, List.append_nil, List.mem_map] at hsv
      obtain ⟨t, ht, rfl⟩ := hsv
      rw [hmem t ht]
    · simp [Trace.andThen, Trace.lift, hr] at hs'
  | ok s1 =>
    obtain ⟨m, g1, g2, g3⟩ := hf s1 hr
    have e1 := ha s1 hr
    refine ⟨1 + m, ?_, ?_, fun s' hs' => ?_⟩
    · simp only [Trace.andThen, Trace.lift, hr, List.nil_append, List.map_append, List.map_map, Function.comp_def]
      rw [g1, e1, ← dueFrom_append, List.map_append]
    · intro sv hsv
      simp only [Trace.andThen, Trace.lift, hr, List.nil_append, List.mem_append, List.mem_map] at hsv
      rcases hsv with ⟨t, ht, rfl⟩ | hsv
      · rw [hmem t ht]
      · exact g2 sv hsv
    · simp only [Trace.andThen, Trace.lift, hr] at hs'
      rw [g3 s' hs', e1, Nat.add_assoc]

theorem OnSchedule.warmupLoop {k t0 : ℕ} (hk : 0 < k) (n : ℕ) : ∀ (i : ℕ) (s : Sampler d B Φ),
    OnSchedule k t0 s (Poco.warmupLoop e rnd (some k) t0 n i s) := by
  induction n with
  | zero => intro i s; exact .refl k t0 s
  | succ n ih =>
    intro i s
    exact .body hk (a := fun s => warmupStep e rnd s i) (fun s' h => (warmupStep_warmup h).2) fun s' _ => ih (i + 1) s'

theorem OnSchedule.smcLoop {k t0 : ℕ} (hk : 0 < k) (fuel n : ℕ) : ∀ s : Sampler d B Φ,
    OnSchedule k t0 s (Poco.smcLoop e rnd fuel (some k) t0 n s) := by
  have err : ∀ (s : Sampler d B Φ) (x : PyErr), OnSchedule k t0 s (([], .error x) : Trace d B Φ) :=
    fun s x => ⟨0, by simp [dueFrom], by simp, fun s' hs' => by cases hs'⟩
  induction n with
  | zero =>
    intro s
    unfold Poco.smcLoop
    split
    · exact err _ _
    · exact .refl k t0 s
    · exact err _ _
  | succ n ih =>
    intro s
    unfold Poco.smcLoop
    split
    · exact err _ _
    · exact .refl k t0 s
    · exact .body hk (a := fun s => smcStep e rnd fuel s) (fun s' h => (smcStep_keep h).2) fun s' _ => ih s'

theorem OnSchedule.runWarmup {k t0 : ℕ} (hk : 0 < k) (a : RunArgs) (ha : a.saveEvery = some k) (s : Sampler d B Φ) :
    OnSchedule k t0 s (Poco.runWarmup e rnd a t0 s) := by
  unfold Poco.runWarmup
  rw [ha]
  split_ifs with h1 h2
  · exact ⟨0, by simp [dueFrom], by simp, fun s' hs' => by cases hs'⟩
  · refine (OnSchedule.warmupLoop hk _ 0 s).andThen fun s1 _ => ⟨0, by simp [dueFrom], by simp, fun s' hs' => ?_⟩
    simp only [Except.ok.injEq] at hs'
    rw [← hs']; rfl
  · exact .refl k t0 s

theorem runInit_t {a : RunArgs} {s s' : Sampler d B Φ} (h : runInit e rnd a s = .ok s') :
    s'.t = s.t ∧ s'.warmup = s.warmup ∧ s'.particles = s.particles ∧ s'.cur = s.cur ∧ s'.calls = s.calls ∧ s'.evals = s.evals := by
  rcases runInit_ok h with ⟨-, rfl⟩ | ⟨-, sc, -, rfl⟩ <;> exact ⟨rfl, rfl, rfl, rfl, rfl, rfl⟩

theorem finalEvidence_keep {s s' : Sampler d B Φ} (h : finalEvidence e rnd s = .ok s') :
    s'.t = s.t ∧ s'.warmup = s.warmup ∧ s'.particles = s.particles ∧ s'.cur = s.cur ∧ s'.nTotal = s.nTotal ∧
      s'.nEvidence = s.nEvidence ∧ s'.flow = s.flow ∧ s'.scaler = s.scaler ∧ s'.priorSamples = s.priorSamples := by
  rcases finalEvidence_ok h with ⟨-, -, h⟩ | ⟨-, lw, z, -, rfl⟩
  · obtain ⟨inv, ll', bl, hbl, h1, h2, rfl⟩ := computeEvidence_ok h
    simp
  · simp

/-- C56: with `save_every = k ≥ 1` a run that starts at iteration `t0` and returns in iteration `t_end` has written, in this
order and nothing else, one file for each iteration strictly between them whose distance from `t0` is a multiple of `k`, and
then the final one; the file of iteration `t` holds the state at iteration `t` and the final one the state returned. If the
run raises, the files are the due ones up to some iteration. Without `save_every` nothing is written. -/
theorem C56_schedule (e : SamplerEnv d B Φ) (rnd : Rnd d Φ) (fuel n : ℕ) (a : RunArgs) (s : Sampler d B Φ) :
    (a.saveEvery = none → (run e rnd fuel n a s).1 = []) ∧
    ∀ k, a.saveEvery = some k → 0 < k →
      (∀ s', (run e rnd fuel n a s).2 = .ok s' →
        (run e rnd fuel n a s).1.map (·.name) = (schedule k s.t s'.t).map SaveName.iter ++ [.final]) ∧
      (∀ x, (run e rnd fuel n a s).2 = .error x →
        ∃ t1, (run e rnd fuel n a s).1.map (·.name) = (schedule k s.t t1).map SaveName.iter) ∧
      ∀ sv ∈ (run e rnd fuel n a s).1, sv.name = .iter sv.state.t ∨
        (sv.name = .final ∧ (run e rnd fuel n a s).2 = .ok sv.state) := by
  constructor
  · intro ha
    have none_nil : ∀ (t : Trace d B Φ) (f : Sampler d B Φ → Trace d B Φ), t.1 = [] → (∀ s, (f s).1 = []) → (t.andThen f).1 = [] := by
      rintro ⟨l, r⟩ f h1 h2
      cases r with
      | error x => exact h1
      | ok s => simp only [Trace.andThen] at h1 ⊢; rw [h1, h2]; rfl
    have sv : ∀ s : Sampler d B Φ, (Trace.save none s.t s).1 = [] := fun s => rfl
    have wl : ∀ m t0 i (s : Sampler d B Φ), (warmupLoop e rnd none t0 m i s).1 = [] := by
      intro m t0
      induction m with
      | zero => intro i s; rfl
      | succ m ih => intro i s; exact none_nil _ _ rfl fun s1 => none_nil _ _ rfl fun s2 => ih _ _
    have sl : ∀ m t0 (s : Sampler d B Φ), (smcLoop e rnd fuel none t0 m s).1 = [] := by
      intro m t0
      induction m with
      | zero => intro s; unfold smcLoop; split <;> rfl
      | succ m ih =>
        intro s
        unfold smcLoop
        split
        · rfl
        · rfl
        · exact none_nil _ _ rfl fun s1 => none_nil _ _ rfl fun s2 => ih _
    unfold run
    rw [ha]
    refine none_nil _ _ rfl fun s1 => none_nil _ _ ?_ fun s2 => none_nil _ _ (sl _ _ _) fun s3 => none_nil _ _ rfl fun s4 => rfl
    unfold runWarmup
    rw [ha]
    split_ifs
    · rfl
    · exact none_nil _ _ (wl _ _ _ _) fun s => rfl
    · rfl
  · intro k ha hk
    -- the run up to the evidence
    set T : Trace d B Φ := (Trace.lift (runInit e rnd a s)).andThen fun s1 =>
      (runWarmup e rnd a s.t s1).andThen fun s2 => smcLoop e rnd fuel a.saveEvery s.t n s2 with hT
    have hS : OnSchedule k s.t s T := by
      rw [hT]
      refine OnSchedule.andThen ⟨0, by simp [Trace.lift, dueFrom], by simp [Trace.lift], fun s' h => (runInit_t h).1⟩ fun s1 _ => ?_
      refine (OnSchedule.runWarmup hk a ha s1).andThen fun s2 _ => ?_
      rw [ha]
      exact OnSchedule.smcLoop hk fuel n s2
    have assoc : ∀ (t : Trace d B Φ) (f g : Sampler d B Φ → Trace d B Φ),
        t.andThen (fun s => (f s).andThen g) = (t.andThen f).andThen g := by
      rintro ⟨l, r⟩ f g
      cases r with
      | error x => rfl
      | ok s1 =>
        simp only [Trace.andThen]
        rcases f s1 with ⟨l2, r2⟩
        cases r2 <;> simp
    have hR : run e rnd fuel n a s = T.andThen fun s3 => (Trace.lift (finalEvidence e rnd s3)).andThen fun s4 =>
        ([⟨.final, s4⟩], .ok s4) := by
      rw [hT, ← assoc]
      unfold run
      dsimp only
      congr 1
      funext s1
      rw [← assoc]
      congr 1
      funext s2
      congr 1
      funext s3
      rw [ha]
    rw [hR]
    obtain ⟨l, r⟩ := T
    obtain ⟨m, h1, h2, h3⟩ := hS
    have hsch : dueFrom k s.t s.t m = schedule k s.t (s.t + m) := by simp [dueFrom, schedule]
    simp only at h1 h2 h3
    cases r with
    | error x =>
      refine ⟨fun s' hs' => (by cases hs'), fun _ _ => ⟨s.t + m, by rw [← hsch]; exact h1⟩, fun sv hsv => .inl (h2 sv hsv)⟩
    | ok s3 =>
      cases hf : finalEvidence e rnd s3 with
      | error x =>
        refine ⟨fun s' hs' => ?_, fun _ _ => ⟨s.t + m, ?_⟩, fun sv hsv => .inl (h2 sv ?_)⟩
        · simp [Trace.andThen, Trace.lift, hf] at hs'
        · rw [← hsch]; simpa [Trace.andThen, Trace.lift, hf] using h1
        · simpa [Trace.andThen, Trace.lift, hf] using hsv
      | ok s4 =>
        have ht : s4.t = s.t + m := (finalEvidence_keep hf).1.trans (h3 s3 rfl)
        refine ⟨fun s' hs' => ?_, fun x hx => ?_, fun sv hsv => ?_⟩
        · simp only [Trace.andThen, Trace.lift, hf, Except.ok.injEq] at hs'
          subst hs'
          rw [ht, ← hsch]
          simpa [Trace.andThen, Trace.lift, hf] using h1
        · simp [Trace.andThen, Trace.lift, hf] at hx
        · simp only [Trace.andThen, Trace.lift, hf, List.nil_append, List.mem_append, List.mem_singleton] at hsv
          rcases hsv with hsv | rfl
          · exact .inl (h2 sv hsv)
          · exact .inr ⟨rfl, by simp [Trace.andThen, Trace.lift, hf]⟩

end

end Poco
