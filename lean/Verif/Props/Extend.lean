import Verif.Props.Shift
import Verif.Props.FlowEvidence
import Verif.Spec.Extend
import Verif.Props.Demo

/-! Asking for more samples later: C137. -/

namespace Poco
open F Spec

variable {d : ℕ} {B Φ : Type}

/-- The parts of the state that no iteration of the main loop reads. -/
def strip (s : Sampler d B Φ) : Sampler d B Φ :=
  { s with calls := 0, evals := [], logz := none, logzErr := none, nTotal := 0, nEvidence := 0 }

theorem reweight_strip (e : SamplerEnv d B Φ) (fuel : ℕ) (s : Sampler d B Φ) (c : Cur d B) :
    reweight e fuel (strip s) c = (reweight e fuel s c).map fun p => (strip p.1, p.2) := by
  unfold reweight
  refine bind_shift_id rfl fun r _ => ?_
  obtain ⟨beta, logz, ess⟩ := r
  refine bind_shift_id rfl fun r _ => ?_
  obtain ⟨w, n⟩ := r
  exact bind_shift_id rfl fun tr _ => bind_shift_id rfl fun c _ => rfl

theorem train_strip (e : SamplerEnv d B Φ) (rnd : Rnd d Φ) (s : Sampler d B Φ) (c : Cur d B) :
    train e rnd (strip s) c = (train e rnd s c).map strip := by
  unfold train
  refine bind_shift_id rfl fun w _ => bind_shift_id rfl fun b _ => ?_
  split_ifs
  · exact bind_shift_id rfl fun f _ => bind_shift_id rfl fun g _ => rfl
  · exact bind_shift_id rfl fun g _ => rfl

theorem mutate_strip (e : SamplerEnv d B Φ) (rnd : Rnd d Φ) (fuel : ℕ) (s : Sampler d B Φ) (c : Cur d B) :
    (mutate e rnd fuel (strip s) c).map (fun p => (strip p.1, p.2)) = (mutate e rnd fuel s c).map fun p => (strip p.1, p.2) := by
  unfold mutate
  have h1 : toWalkers c.it (strip s).haveBlobs = toWalkers c.it s.haveBlobs := rfl
  have h2 : kernelEnv e (strip s) c.it.beta = kernelEnv e s c.it.beta := rfl
  rw [h1, h2]
  cases toWalkers c.it s.haveBlobs with
  | error x => rfl
  | ok ws =>
    cases kernelEnv e s c.it.beta with
    | error x => rfl
    | ok k =>
      simp only [bind, Except.bind]
      have h3 : rnd.mcmc (strip s).t = rnd.mcmc s.t := rfl
      rw [h3]
      cases mcmc k fuel (rnd.mcmc s.t) ws with
      | error x => rfl
      | ok r => rfl

theorem smcStep_strip (e : SamplerEnv d B Φ) (rnd : Rnd d Φ) (fuel : ℕ) (s : Sampler d B Φ) :
    (smcStep e rnd fuel (strip s)).map strip = (smcStep e rnd fuel s).map strip := by
  unfold smcStep
  have h0 : (strip s).cur = s.cur := rfl
  rw [h0]
  cases orErr PyErr.attributeError s.cur with
  | error x => rfl
  | ok c =>
    simp only [bind, Except.bind]
    rw [reweight_strip]
    cases reweight e fuel s c with
    | error x => rfl
    | ok p =>
      obtain ⟨s1, c1⟩ := p
      simp only [Except.map]
      rw [train_strip]
      cases train e rnd s1 c1 with
      | error x => rfl
      | ok s2 =>
        simp only [Except.map]
        have h3 : resampleStep e rnd (strip s2) c1 = resampleStep e rnd s2 c1 := rfl
        rw [h3]
        cases resampleStep e rnd s2 c1 with
        | error x => rfl
        | ok c2 =>
          dsimp only
          have := mutate_strip e rnd fuel s2 c2
          revert this
          cases mutate e rnd fuel (strip s2) c2 with
          | error x =>
            cases mutate e rnd fuel s2 c2 with
            | error y => intro h; simpa [Except.map] using h
            | ok p => intro h; cases h
          | ok p =>
            cases mutate e rnd fuel s2 c2 with
            | error y => intro h; cases h
            | ok q =>
              intro h
              simp only [Except.map, Except.ok.injEq, Prod.mk.injEq] at h
              obtain ⟨g1, g2⟩ := h
              obtain ⟨p1, p2⟩ := p
              obtain ⟨q1, q2⟩ := q
              dsimp only at g1 g2
              subst g2
              simp only [pure, Except.pure, Except.ok.injEq]
              have hp : p1.particles = q1.particles := by have := congrArg Sampler.particles g1; exact this
              have : strip { p1 with cur := some p2, particles := p1.particles.update (Cols.full p2.it) } =
                  { strip p1 with cur := some p2, particles := p1.particles.update (Cols.full p2.it) } := rfl
              rw [this, g1, hp]
              rfl

/-- Agreement in everything an iteration reads. -/
def Alike (a b : Sampler d B Φ) : Prop := strip a = strip b

theorem smcStep_alike {e : SamplerEnv d B Φ} {rnd : Rnd d Φ} {fuel : ℕ} {a b a' : Sampler d B Φ} (h : Alike a b)
    (hs : smcStep e rnd fuel a = .ok a') : ∃ b', smcStep e rnd fuel b = .ok b' ∧ Alike a' b' := by
  have h1 := smcStep_strip e rnd fuel a
  have h2 := smcStep_strip e rnd fuel b
  unfold Alike at h
  rw [h, h2, hs] at h1
  cases hb : smcStep e rnd fuel b with
  | error x => rw [hb] at h1; cases h1
  | ok b' =>
    rw [hb] at h1
    simp only [Except.map, Except.ok.injEq] at h1
    exact ⟨b', rfl, h1.symm⟩

theorem smcStep_args {e : SamplerEnv d B Φ} {rnd : Rnd d Φ} {fuel : ℕ} {s s' : Sampler d B Φ} (h : smcStep e rnd fuel s = .ok s') :
    s'.nTotal = s.nTotal ∧ s'.nEvidence = s.nEvidence := by
  unfold smcStep at h
  obtain ⟨c, -, h⟩ := bind_ok h
  obtain ⟨⟨s1, c1⟩, h1, h⟩ := bind_ok h
  obtain ⟨n, k1⟩ := reweight_keep h1
  obtain ⟨s2, h2, h⟩ := bind_ok h
  obtain ⟨c2, -, h⟩ := bind_ok h
  obtain ⟨⟨s3, c3⟩, h3, h⟩ := bind_ok h
  cases h
  have e2 : s2.nTotal = s1.nTotal ∧ s2.nEvidence = s1.nEvidence := by
    unfold train at h2
    obtain ⟨w, -, h2⟩ := bind_ok h2
    obtain ⟨b, -, h2⟩ := bind_ok h2
    split_ifs at h2
    · obtain ⟨f, -, h2⟩ := bind_ok h2
      obtain ⟨g, -, h2⟩ := bind_ok h2
      cases h2; exact ⟨rfl, rfl⟩
    · obtain ⟨g, -, h2⟩ := bind_ok h2
      cases h2; exact ⟨rfl, rfl⟩
  have e3 : s3.nTotal = s2.nTotal ∧ s3.nEvidence = s2.nEvidence := by
    unfold mutate at h3
    obtain ⟨w, -, h3⟩ := bind_ok h3
    obtain ⟨b, -, h3⟩ := bind_ok h3
    obtain ⟨r, -, h3⟩ := bind_ok h3
    cases h3; exact ⟨rfl, rfl⟩
  subst k1
  exact ⟨e3.1.trans e2.1, e3.2.trans e2.2⟩

theorem notTermination_alike {e : SamplerEnv d B Φ} {a b : Sampler d B Φ} (h : Alike a b) (hn : a.nTotal = b.nTotal) :
    notTermination e a = notTermination e b := by
  have h1 : a.particles = b.particles := by have := congrArg Sampler.particles h; exact this
  have h2 : a.cur = b.cur := by have := congrArg Sampler.cur h; exact this
  unfold notTermination
  rw [h1, h2, hn]

/-- With more samples asked for, the loop does not stop earlier. -/
theorem notTermination_more {e : SamplerEnv d B Φ} {a b : Sampler d B Φ} (h : Alike a b) (hn : a.nTotal ≤ b.nTotal)
    (ht : notTermination e a = .ok true) : notTermination e b = .ok true := by
  have h1 : a.particles = b.particles := by have := congrArg Sampler.particles h; exact this
  have h2 : a.cur = b.cur := by have := congrArg Sampler.cur h; exact this
  unfold notTermination at ht ⊢
  rw [h1, h2] at ht
  obtain ⟨ess, k1, ht⟩ := bind_ok ht
  obtain ⟨c, k2, ht⟩ := bind_ok ht
  rw [k1, k2]
  simp only [bind, Except.bind, pure, Except.pure, Except.ok.injEq, Bool.or_eq_true, decide_eq_true_eq] at ht ⊢
  rcases ht with ht | ht
  · exact .inl ht
  · refine .inr ?_
    have : (F.ofNat a.nTotal : F) ≤ F.ofNat b.nTotal := by
      show (a.nTotal : ℝ) ≤ b.nTotal
      exact_mod_cast hn
    cases ess with
    | nan => exact ht
    | ninf => trivial
    | pinf => exact ht
    | fin r =>
      have ht' : r < (a.nTotal : ℝ) := ht
      show r < (b.nTotal : ℝ)
      exact ht'.trans_le (by exact_mod_cast hn)

theorem save_fine {k : Option ℕ} (hk : k ≠ some 0) (t0 : ℕ) (s : Sampler d B Φ) : (Trace.save k t0 s).2 = .ok s := by
  unfold Trace.save saveNow
  cases k with
  | none => rfl
  | some k =>
    have : k ≠ 0 := fun h => hk (by rw [h])
    dsimp only
    rw [if_neg this]
    split_ifs <;> rfl

theorem andThen_ends {t : Trace d B Φ} {f : Sampler d B Φ → Trace d B Φ} {s : Sampler d B Φ} (h : t.2 = .ok s) :
    (t.andThen f).2 = (f s).2 := by
  obtain ⟨l, r⟩ := t
  dsimp only at h
  subst h
  rfl

theorem smcLoop_stop {e : SamplerEnv d B Φ} {rnd : Rnd d Φ} {fuel : ℕ} {k : Option ℕ} {t0 n : ℕ} {s : Sampler d B Φ}
    (h : notTermination e s = .ok false) : smcLoop e rnd fuel k t0 n s = ([], .ok s) := by
  unfold smcLoop; rw [h]

theorem smcLoop_go {e : SamplerEnv d B Φ} {rnd : Rnd d Φ} {fuel : ℕ} {k : Option ℕ} {t0 n : ℕ} {s s' : Sampler d B Φ}
    (hk : k ≠ some 0) (h : notTermination e s = .ok true) (hs : smcStep e rnd fuel s = .ok s') :
    (smcLoop e rnd fuel k t0 (n + 1) s).2 = (smcLoop e rnd fuel k t0 n s').2 := by
  rw [smcLoop]
  rw [h]
  dsimp only
  rw [andThen_ends (save_fine hk t0 s), andThen_ends (s := s') (by unfold Trace.lift; exact hs)]

/-- A turn of the loop, seen from a loop that returned. -/
theorem smcLoop_cases {e : SamplerEnv d B Φ} {rnd : Rnd d Φ} {fuel : ℕ} {k : Option ℕ} {t0 n : ℕ} {s r : Sampler d B Φ}
    (h : (smcLoop e rnd fuel k t0 n s).2 = .ok r) : (notTermination e s = .ok false ∧ r = s) ∨
      ∃ m s', n = m + 1 ∧ notTermination e s = .ok true ∧ smcStep e rnd fuel s = .ok s' ∧ (smcLoop e rnd fuel k t0 m s').2 = .ok r := by
  unfold smcLoop at h
  cases hn : notTermination e s with
  | error x => rw [hn] at h; cases h
  | ok b =>
    rw [hn] at h
    cases b with
    | false => cases h; exact .inl ⟨rfl, rfl⟩
    | true =>
      cases n with
      | zero => cases h
      | succ m =>
        dsimp only at h
        obtain ⟨s1, h1, h'⟩ := andThen_ok h
        obtain rfl := save_ok h1
        obtain ⟨s2, h2, h''⟩ := andThen_ok h'
        exact .inr ⟨m, s2, rfl, rfl, h2, h''⟩

/-- The same loop from a state that differs in nothing an iteration reads. -/
theorem smcLoop_alike {e : SamplerEnv d B Φ} {rnd : Rnd d Φ} {fuel : ℕ} {k k' : Option ℕ} {t0 t0' n : ℕ} (hk : k' ≠ some 0) :
    ∀ {a b r : Sampler d B Φ}, Alike a b → a.nTotal = b.nTotal → (smcLoop e rnd fuel k t0 n a).2 = .ok r →
      ∃ r', (smcLoop e rnd fuel k' t0' n b).2 = .ok r' ∧ Alike r r' ∧ r.nTotal = a.nTotal ∧ r.nEvidence = a.nEvidence ∧
        r'.nTotal = b.nTotal ∧ r'.nEvidence = b.nEvidence := by
  induction n with
  | zero =>
    intro a b r hab hn h
    rcases smcLoop_cases h with ⟨h1, rfl⟩ | ⟨m, s', hm, -⟩
    · rw [notTermination_alike hab hn] at h1
      exact ⟨b, by rw [smcLoop_stop h1], hab, rfl, rfl, rfl, rfl⟩
    · omega
  | succ n ih =>
    intro a b r hab hn h
    rcases smcLoop_cases h with ⟨h1, rfl⟩ | ⟨m, s', hm, h1, h2, h3⟩
    · rw [notTermination_alike hab hn] at h1
      exact ⟨b, by rw [smcLoop_stop h1], hab, rfl, rfl, rfl, rfl⟩
    · obtain rfl : n = m := by omega
      rw [notTermination_alike hab hn] at h1
      obtain ⟨b', h2', hab'⟩ := smcStep_alike hab h2
      obtain ⟨x1, x2⟩ := smcStep_args h2
      obtain ⟨y1, y2⟩ := smcStep_args h2'
      obtain ⟨r', g1, g2, g3, g4, g5, g6⟩ := ih hab' (by rw [x1, y1, hn]) h3
      exact ⟨r', by rw [smcLoop_go hk h1 h2', g1], g2, g3.trans x1, g4.trans x2, g5.trans y1, g6.trans y2⟩

/-- A loop that asks for more samples passes through the state in which the loop that asks for fewer ends. -/
theorem smcLoop_passes {e : SamplerEnv d B Φ} {rnd : Rnd d Φ} {fuel : ℕ} {k k' : Option ℕ} {t0 t0' n : ℕ} (hk : k' ≠ some 0) :
    ∀ {a b r : Sampler d B Φ}, Alike a b → a.nTotal ≤ b.nTotal → (smcLoop e rnd fuel k t0 n a).2 = .ok r →
      ∃ r' i, Alike r r' ∧ r'.nTotal = b.nTotal ∧ r'.nEvidence = b.nEvidence ∧
        ∀ m, (smcLoop e rnd fuel k' t0' (i + m) b).2 = (smcLoop e rnd fuel k' t0' m r').2 := by
  induction n with
  | zero =>
    intro a b r hab hn h
    rcases smcLoop_cases h with ⟨h1, rfl⟩ | ⟨m, s', hm, -⟩
    · exact ⟨b, 0, hab, rfl, rfl, fun m => by rw [Nat.zero_add]⟩
    · omega
  | succ n ih =>
    intro a b r hab hn h
    rcases smcLoop_cases h with ⟨h1, rfl⟩ | ⟨m, s', hm, h1, h2, h3⟩
    · exact ⟨b, 0, hab, rfl, rfl, fun m => by rw [Nat.zero_add]⟩
    · obtain rfl : n = m := by omega
      have h1' := notTermination_more hab hn h1
      obtain ⟨b', h2', hab'⟩ := smcStep_alike hab h2
      obtain ⟨x1, x2⟩ := smcStep_args h2
      obtain ⟨y1, y2⟩ := smcStep_args h2'
      obtain ⟨r', i, g1, g2, g3, g4⟩ := ih hab' (by rw [x1, y1]; exact hn) h3
      exact ⟨r', i + 1, g1, g2.trans y1, g3.trans y2, fun m => by rw [Nat.add_right_comm, smcLoop_go hk h1' h2', g4]⟩

/-- Other arguments of `run`. -/
def withArgs (N E : ℕ) (s : Sampler d B Φ) : Sampler d B Φ := { s with nTotal := N, nEvidence := E }

theorem warmupStep_args (e : SamplerEnv d B Φ) (rnd : Rnd d Φ) (N E : ℕ) (s : Sampler d B Φ) (i : ℕ) :
    warmupStep e rnd (withArgs N E s) i = (warmupStep e rnd s i).map (withArgs N E) := by
  unfold warmupStep
  refine bind_shift_id rfl fun r _ => ?_
  obtain ⟨b0, hb⟩ := r
  exact bind_shift_id rfl fun b _ => rfl

theorem warmupLoop_args {e : SamplerEnv d B Φ} {rnd : Rnd d Φ} {N E : ℕ} {k k' : Option ℕ} {t0 t0' n : ℕ} (hk : k' ≠ some 0) :
    ∀ {i : ℕ} {s r : Sampler d B Φ}, (warmupLoop e rnd k t0 n i s).2 = .ok r →
      (warmupLoop e rnd k' t0' n i (withArgs N E s)).2 = .ok (withArgs N E r) := by
  induction n with
  | zero => intro i s r h; cases h; rfl
  | succ n ih =>
    intro i s r h
    unfold warmupLoop at h ⊢
    obtain ⟨s1, h1, h'⟩ := andThen_ok h
    obtain rfl := save_ok h1
    obtain ⟨s2, h2, h''⟩ := andThen_ok h'
    have h2' : warmupStep e rnd s1 i = .ok s2 := h2
    rw [andThen_ends (save_fine hk t0' _), andThen_ends (s := withArgs N E s2)]
    · exact ih h''
    · show warmupStep e rnd (withArgs N E s1) i = _
      rw [warmupStep_args, h2']; rfl

theorem runWarmup_args {e : SamplerEnv d B Φ} {rnd : Rnd d Φ} {N E : ℕ} {a a' : RunArgs} {t0 t0' : ℕ} (hk : a'.saveEvery ≠ some 0)
    {s r : Sampler d B Φ} (h : (runWarmup e rnd a t0 s).2 = .ok r) :
    (runWarmup e rnd a' t0' (withArgs N E s)).2 = .ok (withArgs N E r) ∧ r.warmup = false := by
  unfold runWarmup at h ⊢
  have hw : (withArgs N E s).warmup = s.warmup := rfl
  rw [hw]
  split_ifs at h ⊢ with h1 h2
  · obtain ⟨s1, g1, g2⟩ := andThen_ok h
    cases g2
    rw [andThen_ends (warmupLoop_args hk g1)]
    exact ⟨rfl, rfl⟩
  · cases h
    exact ⟨rfl, by simpa using h1⟩

theorem warmupLoop_kept {e : SamplerEnv d B Φ} {rnd : Rnd d Φ} {k : Option ℕ} {t0 n : ℕ} :
    ∀ {i : ℕ} {s r : Sampler d B Φ}, (warmupLoop e rnd k t0 n i s).2 = .ok r →
      r.nTotal = s.nTotal ∧ r.nEvidence = s.nEvidence ∧ r.priorSamples.isSome = s.priorSamples.isSome := by
  induction n with
  | zero => intro i s r h; cases h; exact ⟨rfl, rfl, rfl⟩
  | succ n ih =>
    intro i s r h
    unfold warmupLoop at h
    obtain ⟨s1, h1, h'⟩ := andThen_ok h
    obtain rfl := save_ok h1
    obtain ⟨s2, h2, h''⟩ := andThen_ok h'
    have h2' : warmupStep e rnd s1 i = .ok s2 := h2
    obtain ⟨g1, g2, g3⟩ := ih h''
    unfold warmupStep at h2'
    obtain ⟨⟨b0, hb⟩, -, h3⟩ := bind_ok h2'
    obtain ⟨b, -, h3⟩ := bind_ok h3
    cases h3
    exact ⟨g1, g2, by rw [g3]; simp⟩

theorem runWarmup_kept {e : SamplerEnv d B Φ} {rnd : Rnd d Φ} {a : RunArgs} {t0 : ℕ} {s r : Sampler d B Φ}
    (h : (runWarmup e rnd a t0 s).2 = .ok r) :
    r.nTotal = s.nTotal ∧ r.nEvidence = s.nEvidence ∧ r.priorSamples.isSome = s.priorSamples.isSome := by
  unfold runWarmup at h
  split_ifs at h with h1 h2
  · obtain ⟨s1, g1, g2⟩ := andThen_ok h
    cases g2
    obtain ⟨y1, y2, y3⟩ := warmupLoop_kept g1
    exact ⟨y1, y2, y3⟩
  · cases h; exact ⟨rfl, rfl, rfl⟩

theorem smcStep_prior {e : SamplerEnv d B Φ} {rnd : Rnd d Φ} {fuel : ℕ} {s s' : Sampler d B Φ} (h : smcStep e rnd fuel s = .ok s') :
    s'.priorSamples = s.priorSamples := by
  obtain ⟨c, s1, c1, s2, c2, s3, c3, h0, h1, h2, h3, h4, rfl⟩ := smcStep_ok h
  obtain ⟨n, rfl⟩ := reweight_keep h1
  obtain ⟨ws, k, r, -, -, -, h5⟩ := mutate_ok h4
  simp only [writeBack, Prod.mk.injEq] at h5
  obtain ⟨rfl, rfl⟩ := h5
  rcases train_ok h2 with ⟨-, flow, g, rfl⟩ | ⟨-, g, rfl⟩ <;> rfl

theorem smcLoop_prior {e : SamplerEnv d B Φ} {rnd : Rnd d Φ} {fuel : ℕ} {k : Option ℕ} {t0 n : ℕ} :
    ∀ {s r : Sampler d B Φ}, (smcLoop e rnd fuel k t0 n s).2 = .ok r → r.priorSamples = s.priorSamples := by
  induction n with
  | zero =>
    intro s r h
    rcases smcLoop_cases h with ⟨-, rfl⟩ | ⟨m, s', hm, -⟩
    · rfl
    · omega
  | succ n ih =>
    intro s r h
    rcases smcLoop_cases h with ⟨-, rfl⟩ | ⟨m, s', hm, -, h2, h3⟩
    · rfl
    · obtain rfl : n = m := by omega
      exact (ih h3).trans (smcStep_prior h2)

theorem runInit_args {e : SamplerEnv d B Φ} {rnd : Rnd d Φ} {a a' : RunArgs} {s r : Sampler d B Φ} (h : runInit e rnd a s = .ok r) :
    runInit e rnd a' s = .ok (withArgs a'.nTotal a'.nEvidence r) ∧ r.nTotal = a.nTotal ∧ r.nEvidence = a.nEvidence ∧
      r.priorSamples.isSome = true := by
  unfold runInit at h ⊢
  dsimp only at h ⊢
  cases hp : s.priorSamples with
  | some ps =>
    rw [hp] at h
    dsimp only at h ⊢
    cases h
    exact ⟨rfl, rfl, rfl, by simp [hp]⟩
  | none =>
    rw [hp] at h
    dsimp only at h ⊢
    obtain ⟨sc, h1, h⟩ := bind_ok h
    cases h
    rw [h1]
    exact ⟨rfl, rfl, rfl, rfl⟩

/-- The evidence does not read what `Alike` leaves open, apart from the number of draws asked for. -/
theorem finalEvidence_alike {e : SamplerEnv d B Φ} {rnd : Rnd d Φ} {a b a' : Sampler d B Φ} (h : Alike a b) (hE : a.nEvidence = b.nEvidence)
    (hN : a.nTotal = b.nTotal) (hf : finalEvidence e rnd a = .ok a') : ∃ b', finalEvidence e rnd b = .ok b' ∧ SameResult a' b' := by
  unfold finalEvidence at hf ⊢
  have hpar : a.particles = b.particles := by have := congrArg Sampler.particles h; exact this
  rw [hE] at hf
  split_ifs at hf ⊢
  · unfold computeEvidence at hf ⊢
    have ht : a.t = b.t := by have := congrArg Sampler.t h; exact this
    have hfl : a.flow = b.flow := by have := congrArg Sampler.flow h; exact this
    have hsc : a.scaler = b.scaler := by have := congrArg Sampler.scaler h; exact this
    rw [ht, hfl, hsc] at hf
    obtain ⟨inv, h1, hf⟩ := bind_ok hf
    obtain ⟨⟨logl, bl, hb⟩, h2, hf⟩ := bind_ok hf
    dsimp only
    rw [h1]
    simp only [bind, Except.bind]
    rw [h2]
    refine ⟨_, rfl, ?_⟩
    cases hf
    obtain ⟨⟩ := a
    obtain ⟨⟩ := b
    simp only [Alike, strip, Sampler.mk.injEq] at h hE hN
    obtain ⟨rfl, rfl, rfl, rfl, rfl, rfl, -, rfl, rfl, rfl, rfl, rfl, rfl, rfl, -⟩ := h
    subst hE hN
    rfl
  · obtain ⟨⟨lw, z⟩, h1, hf⟩ := bind_ok hf
    rw [hpar] at h1
    rw [h1]
    refine ⟨_, rfl, ?_⟩
    cases hf
    obtain ⟨⟩ := a
    obtain ⟨⟩ := b
    simp only [Alike, strip, Sampler.mk.injEq] at h hE hN
    obtain ⟨rfl, rfl, rfl, rfl, rfl, rfl, -, rfl, rfl, rfl, rfl, rfl, rfl, rfl, -⟩ := h
    subst hE hN
    rfl

theorem finalEvidence_self {e : SamplerEnv d B Φ} {rnd : Rnd d Φ} {s s' : Sampler d B Φ} (hf : finalEvidence e rnd s = .ok s')
    (hb : s'.haveBlobs = s.haveBlobs) : Alike s s' := by
  rcases finalEvidence_ok hf with ⟨-, -, h⟩ | ⟨-, lw, z, -, rfl⟩
  · obtain ⟨inv, ll', bl, hbl, h1, h2, rfl⟩ := computeEvidence_ok h
    obtain ⟨⟩ := s
    simp only [Alike, strip] at hb ⊢
    rw [hb]
  · rfl

theorem sameResult_alike {a b : Sampler d B Φ} (h : SameResult a b) : Alike a b := by
  unfold SameResult at h
  rw [h]; rfl

section
variable {e : SamplerEnv d B Φ} {ll lp : Pt d → F} {bb : Pt d → List B} {hb : Bool} {rnd : Rnd d Φ}

/-- The flag for blobs does not change when the evidence is computed at the end of a run. -/
theorem evidence_blobs (hu : UserFns e ll lp bb hb) (hc : Configured e) {s s1 s2 s3 s' : Sampler d B Φ} (hs : Session e hb s)
    (hd : Draws s.scaler.low s.scaler.high rnd) {fuel n : ℕ} {a : RunArgs} (h1 : runInit e rnd a s = .ok s1)
    (h2 : (runWarmup e rnd a s.t s1).2 = .ok s2) (h3 : (smcLoop e rnd fuel a.saveEvery s.t n s2).2 = .ok s3)
    (h4 : finalEvidence e rnd s3 = .ok s') : s'.haveBlobs = s3.haveBlobs := by
  obtain ⟨its, hi⟩ := hs.inv hu hc (ll := ll) (lp := lp) (bb := bb)
  have m1 : Moves e rnd s s1 := .single (.init a h1)
  obtain ⟨w1, w2⟩ := Along.runWarmup (e := e) (rnd := rnd) a s.t s1
  have m2 := (w1.to_end s2 h2).1
  obtain ⟨l1, l2⟩ := Along.smcLoop (e := e) (rnd := rnd) fuel a.saveEvery s.t n s2 (w2 s2 h2)
  have m3 := (l1.to_end s3 h3).1
  obtain ⟨hw3, hterm⟩ := l2 s3 h3
  obtain ⟨more, hi3, e1, e2⟩ := hi.moves hu hc hd ((m1.trans m2).trans m3)
  obtain ⟨more', hi4, -, -⟩ := hi3.move hu hc (by rw [e1, e2]; exact hd) (.evidence hw3 h4)
  have hne : its ++ more ≠ [] := by
    obtain ⟨ess, -, k2⟩ := bind_ok hterm
    obtain ⟨c, k3, -⟩ := bind_ok k2
    intro h0
    have := hi3.cur
    rw [h0] at this
    cases hcur : s3.cur with
    | none => rw [hcur] at k3; cases k3
    | some c => rw [hcur] at this; simp at this
  rw [hi3.blobs hne, hi4.blobs fun h0 => hne (List.append_eq_nil_iff.1 h0).1]

/-- A run on a sampler that has finished a run before is the main loop and the evidence. -/
theorem run_later {a : RunArgs} {p r : Sampler d B Φ} (hp : p.priorSamples.isSome = true) (hw : p.warmup = false) {fuel n : ℕ}
    (hr : (run e rnd fuel n a p).2 = .ok r) :
    ∃ s3, (smcLoop e rnd fuel a.saveEvery p.t n (withArgs a.nTotal a.nEvidence p)).2 = .ok s3 ∧ finalEvidence e rnd s3 = .ok r := by
  obtain ⟨s1, s2, s3, h1, h2, h3, h4⟩ := run_ok hr
  have e1 : s1 = withArgs a.nTotal a.nEvidence p := by
    unfold runInit at h1
    dsimp only at h1
    cases hps : p.priorSamples with
    | none => rw [hps] at hp; cases hp
    | some ps => rw [hps] at h1; cases h1; simp only [withArgs, hps]
  subst e1
  have e3 : s2 = withArgs a.nTotal a.nEvidence p := by
    unfold runWarmup at h2
    rw [if_neg (by simp [withArgs, hw])] at h2
    cases h2; rfl
  subst e3
  exact ⟨s3, h3, h4⟩

/-- A run on a sampler that has finished a run before depends only on what `Alike` compares. -/
theorem run_alike {a : RunArgs} (hk : a.saveEvery ≠ some 0) {p q r : Sampler d B Φ} (h : Alike p q) (hp : p.priorSamples.isSome = true)
    (hw : p.warmup = false) {fuel n : ℕ} (hr : (run e rnd fuel n a p).2 = .ok r) :
    ∃ r', (run e rnd fuel n a q).2 = .ok r' ∧ SameResult r r' := by
  obtain ⟨s3, h3, h4⟩ := run_later hp hw hr
  have hq : q.priorSamples = p.priorSamples := by have := congrArg Sampler.priorSamples h; exact this.symm
  have hqw : q.warmup = false := by have := congrArg Sampler.warmup h; exact (this.symm.trans hw)
  have e2 : runInit e rnd a q = .ok (withArgs a.nTotal a.nEvidence q) := by
    unfold runInit
    dsimp only
    cases hps : p.priorSamples with
    | none => rw [hps] at hp; cases hp
    | some ps => simp only [withArgs, hq, hps]
  have e4 : (runWarmup e rnd a q.t (withArgs a.nTotal a.nEvidence q)).2 = .ok (withArgs a.nTotal a.nEvidence q) := by
    unfold runWarmup
    rw [if_neg (by simp [withArgs, hqw])]
  have hal : Alike (withArgs a.nTotal a.nEvidence p) (withArgs a.nTotal a.nEvidence q) := by exact h
  obtain ⟨r3, g1, g2, g3, g4, g5, g6⟩ := smcLoop_alike (k' := a.saveEvery) (t0' := q.t) hk hal rfl h3
  obtain ⟨r', k1, k2⟩ := finalEvidence_alike g2 (by rw [g4, g6]; rfl) (by rw [g3, g5]; rfl) h4
  refine ⟨r', ?_, k2⟩
  unfold run
  dsimp only
  rw [andThen_ends (s := withArgs a.nTotal a.nEvidence q) (by exact e2), andThen_ends e4, andThen_ends g1, andThen_ends (s := r') (by exact k1)]

/-- C137: with the random numbers of each iteration the same, a run that asks for `n_total` effective samples, followed by one that asks for at
least as many, ends where a single run with the arguments of the second one ends: the same particles with all their
columns, the same flow and geometry, the same iteration number, the same evidence and error. They may differ only in the number of
likelihood calls and in the points evaluated (the evidence of the first run costs evaluations of its own). -/
theorem C137_extend (hu : UserFns e ll lp bb hb) (hc : Configured e) {s s1 s2 : Sampler d B Φ} (hs : Session e hb s)
    (hd : Draws s.scaler.low s.scaler.high rnd) (fuel n1 n2 : ℕ) (a1 a2 : RunArgs) (hk : a2.saveEvery ≠ some 0) (hN : a1.nTotal ≤ a2.nTotal)
    (h1 : (run e rnd fuel n1 a1 s).2 = .ok s1) (h2 : (run e rnd fuel n2 a2 s1).2 = .ok s2) :
    ∃ n s', (run e rnd fuel n a2 s).2 = .ok s' ∧ SameResult s2 s' := by
  obtain ⟨p1, p2, p3, i1, i2, i3, i4⟩ := run_ok h1
  have hbl := evidence_blobs hu hc hs hd i1 i2 i3 i4
  have al := finalEvidence_self i4 hbl
  obtain ⟨j1, j2, j3, j4⟩ := runInit_args (a' := a2) i1
  obtain ⟨k1, k2⟩ := runWarmup_args (a' := a2) (t0' := s.t) (N := a2.nTotal) (E := a2.nEvidence) hk i2
  obtain ⟨x1, x2, x3⟩ := runWarmup_kept i2
  obtain ⟨q3, i, g1, g2, g3, g4⟩ := smcLoop_passes (k' := a2.saveEvery) (t0' := s.t) (a := p2) (b := withArgs a2.nTotal a2.nEvidence p2) hk rfl
    (by show p2.nTotal ≤ a2.nTotal; rw [x1, j2]; exact hN) i3
  -- the second run
  have hw1 : s1.warmup = false := by
    rw [(finalEvidence_keep i4).2.1]
    obtain ⟨-, w2⟩ := Along.runWarmup (e := e) (rnd := rnd) a1 s.t p1
    exact ((Along.smcLoop (e := e) (rnd := rnd) fuel a1.saveEvery s.t n1 p2 (w2 p2 i2)).2 p3 i3).1
  have hps : s1.priorSamples.isSome = true := by
    rw [(finalEvidence_keep i4).2.2.2.2.2.2.2.2, smcLoop_prior i3, x3, j4]
  obtain ⟨r3, l3, l4⟩ := run_later hps hw1 h2
  have al2 : Alike (withArgs a2.nTotal a2.nEvidence s1) q3 := by
    have : Alike p3 q3 := g1
    exact (al.symm.trans this : strip s1 = strip q3)
  obtain ⟨r', o1, o2, o3, o4, o5, o6⟩ := smcLoop_alike (k' := a2.saveEvery) (t0' := s.t) hk al2 (by rw [g2]; rfl) l3
  obtain ⟨s', y1, y2⟩ := finalEvidence_alike o2 (by rw [o4, o6, g3]; rfl) (by rw [o3, o5, g2]; rfl) l4
  refine ⟨i + n2, s', ?_, y2⟩
  unfold run
  dsimp only
  rw [andThen_ends (s := withArgs a2.nTotal a2.nEvidence p1) (by exact j1), andThen_ends k1, andThen_ends ((g4 n2).trans o1),
    andThen_ends (s := s') (by exact y1)]

/-- What a run that returned has done: the warm-up is over and there are prior samples. -/
theorem run_done {a : RunArgs} {s s' : Sampler d B Φ} {fuel n : ℕ} (h : (run e rnd fuel n a s).2 = .ok s') :
    s'.warmup = false ∧ s'.priorSamples.isSome = true ∧ notTermination e s' = .ok false ∧ s'.nTotal = a.nTotal := by
  obtain ⟨p1, p2, p3, i1, i2, i3, i4⟩ := run_ok h
  obtain ⟨j1, j2, j3, j4⟩ := runInit_args (a' := a) i1
  obtain ⟨x1, x2, x3⟩ := runWarmup_kept i2
  obtain ⟨-, w2⟩ := Along.runWarmup (e := e) (rnd := rnd) a s.t p1
  obtain ⟨hw, ht⟩ := (Along.smcLoop (e := e) (rnd := rnd) fuel a.saveEvery s.t n p2 (w2 p2 i2)).2 p3 i3
  obtain ⟨k1, k2, k3, k4, k5, k6, -, -, k9⟩ := finalEvidence_keep i4
  have hN : p3.nTotal = p2.nTotal := by
    obtain ⟨r', -, -, g, -⟩ := smcLoop_alike (k' := none) (t0' := s.t) (by simp) (rfl : Alike p2 p2) rfl i3
    exact g
  refine ⟨k2.trans hw, by rw [k9, smcLoop_prior i3, x3, j4], ?_, by rw [k5, hN, x1, j2]⟩
  unfold notTermination at ht ⊢
  rw [k3, k4, k5]
  exact ht

theorem runs_nil {s s' : Sampler d B Φ} {fuel : ℕ} : ¬ Runs e rnd fuel s [] s' := by
  intro h
  generalize hl : ([] : List RunArgs) = l at h
  cases h <;> simp at hl

/-- C137, any number of runs: if each asks for at least as many samples as the ones before, the last one ends where a single run with its
arguments ends. -/
theorem C137_chain (hu : UserFns e ll lp bb hb) (hc : Configured e) {s s' : Sampler d B Φ} (hs : Session e hb s)
    (hd : Draws s.scaler.low s.scaler.high rnd) (fuel : ℕ) (as : List RunArgs) (a : RunArgs) (hk : ∀ b ∈ as ++ [a], b.saveEvery ≠ some 0)
    (hN : (as ++ [a]).Pairwise fun b c => b.nTotal ≤ c.nTotal) (h : Runs e rnd fuel s (as ++ [a]) s') :
    ∃ n q, (run e rnd fuel n a s).2 = .ok q ∧ SameResult s' q := by
  generalize hl : as ++ [a] = l at h hk hN
  induction h generalizing as a with
  | one n b h =>
    have := List.append_inj_right' (hl.trans (List.nil_append [b]).symm) rfl
    cases this
    exact ⟨n, _, h, rfl⟩
  | @next p q bs n b h1 h2 ih =>
    obtain ⟨g1, g2⟩ := List.append_inj' hl rfl
    cases g2
    subst g1
    rcases List.eq_nil_or_concat as with rfl | ⟨cs, c, rfl⟩
    · exact absurd h1 runs_nil
    · rw [List.concat_eq_append] at h1 ih hN hk
      obtain ⟨m, r, k1, k2⟩ := ih cs c rfl (fun b hb' => hk b (List.mem_append_left _ hb')) (List.pairwise_append.1 hN).1
      obtain ⟨-, -, hN3⟩ := List.pairwise_append.1 hN
      have hal : Alike p r := sameResult_alike k2
      obtain ⟨d1, d2, -, -⟩ := run_done k1
      have hp : p.priorSamples.isSome = true := by
        have : p.priorSamples = r.priorSamples := by have := congrArg Sampler.priorSamples hal; exact this
        rw [this]; exact d2
      have hw : p.warmup = false := by
        have : p.warmup = r.warmup := by have := congrArg Sampler.warmup hal; exact this
        rw [this]; exact d1
      obtain ⟨r2, l1, l2⟩ := run_alike (hk b (by simp)) hal hp hw h2
      obtain ⟨m', q', o1, o2⟩ := C137_extend hu hc hs hd fuel m n c b (hk b (by simp)) (hN3 c (by simp) b (by simp)) k1 l1
      refine ⟨m', q', o1, ?_⟩
      unfold SameResult at l2 o2 ⊢
      rw [l2, o2]

/-- C137, the other direction: a later run that asks for no more samples than the one before makes no iteration; it returns at once, with the particles, the
flow and the iteration number as they were, and recomputes the evidence. -/
theorem C137_fewer {s s1 s2 : Sampler d B Φ} {rnd' : Rnd d Φ} (fuel n1 fuel' n2 : ℕ) (a1 a2 : RunArgs) (hN : a2.nTotal ≤ a1.nTotal)
    (h1 : (run e rnd fuel n1 a1 s).2 = .ok s1) (h2 : (run e rnd' fuel' n2 a2 s1).2 = .ok s2) :
    s2.particles = s1.particles ∧ s2.t = s1.t ∧ s2.flow = s1.flow ∧ s2.cur = s1.cur := by
  obtain ⟨d1, d2, d3, d4⟩ := run_done h1
  obtain ⟨s3, l3, l4⟩ := run_later d2 d1 h2
  have : notTermination e (withArgs a2.nTotal a2.nEvidence s1) = .ok false := by
    cases hn : notTermination e (withArgs a2.nTotal a2.nEvidence s1) with
    | error x =>
      exfalso
      unfold notTermination at hn d3
      obtain ⟨ess, k1, k2⟩ := bind_ok d3
      obtain ⟨c, k3, k4⟩ := bind_ok k2
      have e1 : (withArgs a2.nTotal a2.nEvidence s1).particles = s1.particles := rfl
      have e2 : (withArgs a2.nTotal a2.nEvidence s1).cur = s1.cur := rfl
      rw [e1, e2, k1, k3] at hn
      cases hn
    | ok b =>
      cases b with
      | false => rfl
      | true =>
        have := notTermination_more (a := withArgs a2.nTotal a2.nEvidence s1) (b := s1) rfl (by rw [d4]; exact hN) hn
        rw [d3] at this
        cases this
  rw [smcLoop_stop this] at l3
  cases l3
  obtain ⟨k1, k2, k3, k4, k5, k6, k7, -, -⟩ := finalEvidence_keep l4
  exact ⟨k3, k1, k7, k4⟩

/-- C137, the same run again: with the same arguments and the same random numbers it returns at once, with the same particles and evidence. -/
theorem C137_again (hu : UserFns e ll lp bb hb) (hc : Configured e) {s s1 : Sampler d B Φ} (hs : Session e hb s)
    (hd : Draws s.scaler.low s.scaler.high rnd) (fuel n1 fuel' n2 : ℕ) (a : RunArgs) (hk : a.saveEvery ≠ some 0)
    (h1 : (run e rnd fuel n1 a s).2 = .ok s1) : ∃ s2, (run e rnd fuel' n2 a s1).2 = .ok s2 ∧ SameResult s1 s2 := by
  obtain ⟨d1, d2, d3, d4⟩ := run_done h1
  obtain ⟨p1, p2, p3, i1, i2, i3, i4⟩ := run_ok h1
  have al := finalEvidence_self i4 (evidence_blobs hu hc hs hd i1 i2 i3 i4)
  obtain ⟨-, -, k3, k4, k5, k6, -, -, -⟩ := finalEvidence_keep i4
  obtain ⟨j1, j2, j3, j4⟩ := runInit_args (a' := a) i1
  obtain ⟨x1, x2, x3⟩ := runWarmup_kept i2
  obtain ⟨r', -, -, g1, g2, -⟩ := smcLoop_alike (k' := none) (t0' := s.t) (by simp) (rfl : Alike p2 p2) rfl i3
  have hE : s1.nEvidence = a.nEvidence := by rw [k6, g2, x2, j3]
  have h0 : withArgs a.nTotal a.nEvidence s1 = s1 := by
    obtain ⟨⟩ := s1
    simp only at hE d4
    subst hE d4
    rfl
  have e1 : runInit e rnd a s1 = .ok s1 := by
    unfold runInit
    dsimp only
    cases hps : s1.priorSamples with
    | none => rw [hps] at d2; cases d2
    | some ps =>
      have := h0
      simp only [withArgs, hps] at this ⊢
      rw [this]
  have e2 : (runWarmup e rnd a s1.t s1).2 = .ok s1 := by unfold runWarmup; rw [if_neg (by simp [d1])]
  obtain ⟨s2, y1, y2⟩ := finalEvidence_alike al k6.symm k5.symm i4
  refine ⟨s2, ?_, y2⟩
  unfold run
  dsimp only
  rw [andThen_ends (s := s1) (by exact e1), andThen_ends e2, andThen_ends (s := s1) (by rw [smcLoop_stop d3]), andThen_ends (s := s2) (by exact y1)]

/-- What the user reads off: `posterior` with any options, and `evidence`, return the same. -/
theorem C137_outputs {a b : Sampler d B Φ} (h : SameResult a b) (us : ℕ → ℝ) (u : ℝ) (p : PostArgs) :
    posterior e us u p a = posterior e us u p b ∧ evidence a = evidence b := by
  unfold SameResult at h
  rw [h]
  exact ⟨rfl, rfl⟩

end

/-- The example: a run for 6 effective samples, then one for 8 that makes another iteration; and a single run for 8 from the new sampler ends
with the same particles and evidence. -/
example : ∃ s1 s2, (run (Demo.env true) Demo.rnd 0 1 (Demo.args 5) Demo.start).2 = .ok s1 ∧
    (run (Demo.env true) Demo.rnd 0 1 ⟨8, 5, some 1⟩ s1).2 = .ok s2 ∧ s2.t = s1.t + 1 ∧
    ∃ n s', (run (Demo.env true) Demo.rnd 0 n ⟨8, 5, some 1⟩ Demo.start).2 = .ok s' ∧ SameResult s2 s' ∧ s2.particles = s'.particles ∧
      evidence s2 = evidence s' := by
  obtain ⟨s1, h1, -⟩ := Demo.session true 5
  obtain ⟨-, s2, h2, ht⟩ := Demo.second_run true 5 s1 h1
  obtain ⟨n, s', h3, h4⟩ := C137_extend (Demo.user true) (Demo.configured true) (.fresh (Demo.fresh true)) Demo.draws 0 1 1 _ _ (by simp)
    (by simp [Demo.args]) h1 h2
  refine ⟨s1, s2, h1, h2, ht, n, s', h3, h4, ?_, (C137_outputs (e := Demo.env true) h4 (fun _ => 0) 0 .default).2⟩
  have : SameResult s2 s' := h4
  unfold SameResult at this
  rw [this]

/-- The hypothesis of `C137_chain` is met by these two runs. -/
example : ∃ s2, Runs (Demo.env true) Demo.rnd 0 Demo.start [Demo.args 5, ⟨8, 5, some 1⟩] s2 := by
  obtain ⟨s1, h1, -⟩ := Demo.session true 5
  obtain ⟨-, s2, h2, ht⟩ := Demo.second_run true 5 s1 h1
  exact ⟨s2, .next (as := [_]) 1 _ (.one 1 _ h1) h2⟩

/-- And those of `C137_again` and `C137_fewer` by running the example once more. -/
example : ∃ s1 s2, (run (Demo.env true) Demo.rnd 0 1 (Demo.args 5) Demo.start).2 = .ok s1 ∧
    (run (Demo.env true) Demo.rnd 0 0 (Demo.args 5) s1).2 = .ok s2 ∧ SameResult s1 s2 ∧ s2.particles = s1.particles := by
  obtain ⟨s1, h1, -⟩ := Demo.session true 5
  obtain ⟨s2, h2, h3⟩ := C137_again (Demo.user true) (Demo.configured true) (.fresh (Demo.fresh true)) Demo.draws 0 1 0 0 _ (by simp [Demo.args]) h1
  exact ⟨s1, s2, h1, h2, h3, (C137_fewer 0 1 0 0 _ _ le_rfl h1 h2).1⟩

end Poco
