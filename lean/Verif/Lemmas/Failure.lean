import Verif.Model.Failure
import Verif.Lemmas.Inv

/-! What a run leaves behind when it raises. -/

namespace Poco
open F Spec

variable {d : ℕ} {B Φ : Type}

/-! ### two programs side by side -/

/-- The imperative piece `m`, started in `s`, and the functional piece `f` return together (and then `ok` holds of the results and the state) or raise the same
exception (and then `err` holds of the state left behind). With `q = false` the user may interrupt `m`; if not while something is stored or the scaler is fitted,
`err` holds then, too. -/
def Beside {α β : Type} (q : Bool) (m : PyM d B Φ α) (s : Sampler d B Φ) (f : Except PyErr β) (ok : α → β → Sampler d B Φ → Prop) (err : Sampler d B Φ → Prop) : Prop :=
  ∀ k : Option ℕ, (q = true → k = none) →
    match m k s with
    | .ok a s' => (q = true → a.2 = none) ∧ ∃ b, f = .ok b ∧ ok a.1 b s'
    | .error x s' => (q = false ∧ (x = .keyboardInterrupt .storing ∨ x = .keyboardInterrupt .scaling)) ∨
        ((f = .error x ∨ q = false ∧ x = .keyboardInterrupt .elsewhere) ∧ err s')

theorem not_quiet {q : Bool} {P : Prop} (h : q = false) (k : q = true) : P := by rw [h] at k; cases k

section
variable {α β γ : Type} {q : Bool} {s : Sampler d B Φ} {ok : α → β → Sampler d B Φ → Prop} {err : Sampler d B Φ → Prop}

theorem some_not_quiet {q : Bool} {n : ℕ} (h : q = true → some n = none) : q = false := by
  cases q with
  | false => rfl
  | true => cases h rfl

theorem Beside.tick {m : Moment} {k : Unit → PyM d B Φ α} {f : Except PyErr β} (he : q = false → m = .elsewhere → err s) (h : Beside q (k ()) s f ok err) :
    Beside q (PyM.tick m >>= k) s f ok err := by
  intro c hc
  rcases c with _ | _ | n
  · exact h none hc
  · have hq := some_not_quiet hc
    change (_ ∨ _)
    cases m with
    | storing => exact .inl ⟨hq, .inl rfl⟩
    | scaling => exact .inl ⟨hq, .inr rfl⟩
    | elsewhere => exact .inr ⟨.inr ⟨hq, rfl⟩, he hq rfl⟩
  · exact h (some n) (not_quiet (some_not_quiet hc))

theorem Beside.pure {a : α} {b : β} (h : ok a b s) : Beside q (Pure.pure a) s (.ok b) ok err := fun _ hc => ⟨hc, b, rfl, h⟩

theorem Beside.throw {x : PyErr} (h : err s) : Beside q (MonadExcept.throw x : PyM d B Φ α) s (.error x) ok err := fun _ _ => .inr ⟨.inl rfl, h⟩

theorem Beside.callAt {m : Moment} {a : Except PyErr γ} {k : γ → PyM d B Φ α} {g : γ → Except PyErr β} (he : q = false → m = .elsewhere → err s)
    (hx : ∀ x, a = .error x → err s) (h : ∀ v, a = .ok v → Beside q (k v) s (g v) ok err) :
    Beside q (PyM.callAt m a >>= k) s (a >>= g) ok err := by
  unfold PyM.callAt
  rw [bind_assoc]
  refine .tick he ?_
  cases a with
  | error x => exact fun _ _ => .inr ⟨.inl rfl, hx x rfl⟩
  | ok v =>
    simp only [pure_bind]
    exact h v rfl

theorem Beside.call {a : Except PyErr γ} {k : γ → PyM d B Φ α} {g : γ → Except PyErr β} (he : err s) (h : ∀ v, a = .ok v → Beside q (k v) s (g v) ok err) :
    Beside q (PyM.call a >>= k) s (a >>= g) ok err := .callAt (fun _ _ => he) (fun _ _ => he) h

theorem Beside.callOk {a : Except PyErr γ} {v : γ} {k : γ → PyM d B Φ α} {f : Except PyErr β} (ha : a = .ok v) (he : q = false → err s) (h : Beside q (k v) s f ok err) :
    Beside q (PyM.call a >>= k) s f ok err := by
  subst ha
  unfold PyM.call PyM.callAt
  rw [bind_assoc]
  refine .tick (fun hq _ => he hq) ?_
  simp only [pure_bind]
  exact h

theorem Beside.callIf {a : Except PyErr γ} {k : γ → PyM d B Φ α} {f : Except PyErr β} (hx : ∀ x, a = .error x → f = .error x) (he : err s)
    (h : ∀ v, a = .ok v → Beside q (k v) s f ok err) : Beside q (PyM.call a >>= k) s f ok err := by
  cases a with
  | error x =>
    rw [hx x rfl]
    exact Beside.call (a := .error x) (g := fun _ => .error x) he fun v h => by cases h
  | ok v => exact .callOk rfl (fun _ => he) (h v rfl)

theorem Beside.call₂ {δ : Type} {a : Except PyErr δ} {b : δ → Except PyErr γ} {k : γ → PyM d B Φ α} {g : γ → Except PyErr β} (he : err s)
    (h : ∀ v, Beside q (k v) s (g v) ok err) : Beside q (PyM.call (a >>= b) >>= k) s (a >>= fun v => b v >>= g) ok err := by
  rw [← bind_assoc]
  exact .call he fun w _ => h w

theorem Beside.changeAt {m : Moment} {c : Sampler d B Φ → Sampler d B Φ} {k : Unit → PyM d B Φ α} {f : Except PyErr β} (he : q = false → m = .elsewhere → err s)
    (h : Beside q (k ()) (c s) f ok err) : Beside q (PyM.changeAt m c >>= k) s f ok err := by
  unfold PyM.changeAt
  rw [bind_assoc]
  exact .tick he h

theorem Beside.change {c : Sampler d B Φ → Sampler d B Φ} {k : Unit → PyM d B Φ α} {f : Except PyErr β} (he : q = false → err s)
    (h : Beside q (k ()) (c s) f ok err) : Beside q (PyM.change c >>= k) s f ok err := .changeAt (fun hq _ => he hq) h

theorem Beside.assign {m : Cur d B → Cur d B} {k : Unit → PyM d B Φ α} {f : Except PyErr β} (he : q = false → err s)
    (h : Beside q (k ()) { s with cur := s.cur.map m } f ok err) : Beside q (PyM.assign m >>= k) s f ok err := .change he h

theorem Beside.last {m : PyM d B Φ Unit} {ok : Unit → β → Sampler d B Φ → Prop} {f : Except PyErr β} (h : Beside q (m >>= fun _ => Pure.pure ()) s f ok err) : Beside q m s f ok err := by
  rwa [show (m >>= fun _ => Pure.pure ()) = m from bind_pure_unit] at h

theorem Beside.look {k : Sampler d B Φ → PyM d B Φ α} {f : Except PyErr β} (h : Beside q (k s) s f ok err) :
    Beside q (PyM.look >>= k) s f ok err := h

theorem Beside.fit {a : Except PyErr γ} {left : Sampler d B Φ → Sampler d B Φ} {k : γ → PyM d B Φ α} {g : γ → Except PyErr β} (he : err (left s))
    (h : ∀ v, a = .ok v → Beside q (k v) s (g v) ok err) : Beside q (PyM.fit a left >>= k) s (a >>= g) ok err := by
  intro c hc
  rcases c with _ | _ | n
  · cases a with
    | error x => exact .inr ⟨.inl rfl, he⟩
    | ok v => exact h v rfl none hc
  · exact .inr ⟨.inr ⟨some_not_quiet hc, rfl⟩, he⟩
  · cases a with
    | error x => exact .inr ⟨.inl rfl, he⟩
    | ok v => exact h v rfl (some n) (not_quiet (some_not_quiet hc))

theorem Beside.mono {m : PyM d B Φ α} {f : Except PyErr β} {err₁ : Sampler d B Φ → Prop} (h : Beside q m s f ok err₁) (he : ∀ s', err₁ s' → err s') :
    Beside q m s f ok err := by
  intro c hc
  have := h c hc
  generalize m c s = r at this ⊢
  cases r with
  | ok v s' => exact this
  | error x s' => exact this.imp id fun h => ⟨h.1, he _ h.2⟩

theorem Beside.mono_ok {m : PyM d B Φ α} {f : Except PyErr β} {ok₁ : α → β → Sampler d B Φ → Prop} (h : Beside q m s f ok₁ err)
    (he : ∀ v w s', ok₁ v w s' → ok v w s') : Beside q m s f ok err := by
  intro c hc
  have := h c hc
  generalize m c s = r at this ⊢
  cases r with
  | ok v s' => obtain ⟨h0, w, h1, h2⟩ := this; exact ⟨h0, w, h1, he _ _ _ h2⟩
  | error x s' => exact this

/-- One piece after the other. -/
theorem Beside.bind {δ : Type} {m : PyM d B Φ δ} {k : δ → PyM d B Φ α} {a : Except PyErr γ} {g : γ → Except PyErr β} {ok₁ : δ → γ → Sampler d B Φ → Prop}
    (h : Beside q m s a ok₁ err) (h' : ∀ v w s', ok₁ v w s' → a = .ok w → Beside q (k v) s' (g w) ok err) : Beside q (m >>= k) s (a >>= g) ok err := by
  intro c hc
  have := h c hc
  change match EStateM.bind (m c) (fun p => k p.1 p.2) s with | .ok a s' => _ | .error x s' => _
  unfold EStateM.bind
  generalize m c s = r at this ⊢
  cases r with
  | ok v s' =>
    obtain ⟨h0, w, h1, h2⟩ := this
    have := h' v.1 w s' h2 h1 v.2 h0
    rw [h1]
    exact this
  | error x s' =>
    refine this.imp id ?_
    rintro ⟨h1, h2⟩
    exact ⟨h1.imp (fun h1 => by rw [h1]; rfl) id, h2⟩

end

/-! ### what a failed iteration touches -/

/-- The keys of `current_particles` that an iteration does not set, or sets only at its end (`blobs` is among them when there are none). An interrupt (`q = false`)
may arrive when some of the latter are set. -/
structure SameRest (q hb : Bool) (it it' : Iter d (List B)) : Prop where
  iter : it'.iter = it.iter
  logw : it'.logw = it.logw
  late : q = true → it'.calls = it.calls ∧ it'.steps = it.steps ∧ it'.efficiency = it.efficiency ∧ it'.accept = it.accept
  blobs : hb = false → it'.blobs = it.blobs

theorem SameRest.refl (q hb : Bool) (it : Iter d (List B)) : SameRest q hb it it := ⟨rfl, rfl, fun _ => ⟨rfl, rfl, rfl, rfl⟩, fun _ => rfl⟩

theorem SameRest.trans {q hb : Bool} {a b c : Iter d (List B)} (h : SameRest q hb a b) (k : SameRest q hb b c) : SameRest q hb a c :=
  ⟨k.iter.trans h.iter, k.logw.trans h.logw, fun hq => ⟨(k.late hq).1.trans (h.late hq).1, (k.late hq).2.1.trans (h.late hq).2.1,
    (k.late hq).2.2.1.trans (h.late hq).2.2.1, (k.late hq).2.2.2.trans (h.late hq).2.2.2⟩, fun hh => (k.blobs hh).trans (h.blobs hh)⟩

/-- `s'` differs from `s` at most in the iteration counter, `n_effective`, the flow, the geometries, what the kernel's results are written to, and the keys of
`current_particles` an iteration sets. -/
def Touched (q : Bool) (s s' : Sampler d B Φ) : Prop :=
  ∃ c c' : Cur d B, s.cur = some c ∧ SameRest q s.haveBlobs c.it c'.it ∧ s.t ≤ s'.t ∧ s'.t ≤ s.t + 1 ∧
    s' = { s with t := s'.t, nEffective := s'.nEffective, flow := s'.flow, flowUntrained := s'.flowUntrained, uGeometry := s'.uGeometry,
                  thetaGeometry := s'.thetaGeometry, calls := s'.calls, proposalScale := s'.proposalScale, evals := s'.evals, cur := some c' }

variable {e : SamplerEnv d B Φ} {rnd : Rnd d Φ} {lo : Leftover d Φ} {fuel : ℕ} {q : Bool}

theorem reweightX_spec {s : Sampler d B Φ} {c : Cur d B} (hc : s.cur = some c) :
    Beside q (reweightX e fuel) s (reweight e fuel s c)
      (fun _ r s' => s' = { r.1 with cur := some r.2 } ∧ SameRest q s.haveBlobs c.it r.2.it) (Touched q s) := by
  have hT : ∀ (n : ℕ) (c' : Cur d B), SameRest q s.haveBlobs c.it c'.it → Touched q s { s with t := s.t + 1, nEffective := n, cur := some c' } :=
    fun n c' h => ⟨c, c', hc, h, by simp, by simp, rfl⟩
  have hTs : Touched q s s := ⟨c, c, hc, .refl _ _ _, le_refl _, by simp, by rw [← hc]⟩
  have hT0 := hT s.nEffective c (.refl _ _ _)
  rw [← hc] at hT0
  unfold reweightX reweight
  refine .change (fun _ => hTs) (.look (.call hT0 fun v _ => ?_))
  obtain ⟨beta, logz, ess⟩ := v
  refine .call hT0 fun v _ => ?_
  obtain ⟨w, nEff⟩ := v
  have hT1 := hT nEff c (.refl _ _ _)
  rw [← hc] at hT1
  refine .change (fun _ => hT0) (.call hT1 fun tr _ => ?_)
  simp only [gatherCur, bind_assoc, pure_bind]
  refine .call₂ hT1 fun u => .assign (fun _ => hT1) ?_
  simp only [hc, Option.map_some]
  have k1 := hT nEff { c with it := { c.it with u := u } } ⟨rfl, rfl, fun _ => ⟨rfl, rfl, rfl, rfl⟩, fun _ => rfl⟩
  refine .call₂ k1 fun x => .assign (fun _ => k1) ?_
  simp only [Option.map_some]
  have k2 := hT nEff { c with it := { c.it with u := u, x := x } } ⟨rfl, rfl, fun _ => ⟨rfl, rfl, rfl, rfl⟩, fun _ => rfl⟩
  refine .call₂ k2 fun logdetj => .assign (fun _ => k2) ?_
  simp only [Option.map_some]
  have k3 := hT nEff { c with it := { c.it with u := u, x := x, logdetj := logdetj } } ⟨rfl, rfl, fun _ => ⟨rfl, rfl, rfl, rfl⟩, fun _ => rfl⟩
  refine .call₂ k3 fun logl => .assign (fun _ => k3) ?_
  simp only [Option.map_some]
  have k4 := hT nEff { c with it := { c.it with u := u, x := x, logdetj := logdetj, logl := logl } } ⟨rfl, rfl, fun _ => ⟨rfl, rfl, rfl, rfl⟩, fun _ => rfl⟩
  refine .call₂ k4 fun logp => .assign (fun _ => k4) ?_
  simp only [Option.map_some]
  have k5 := hT nEff { c with it := { c.it with u := u, x := x, logdetj := logdetj, logl := logl, logp := logp } } ⟨rfl, rfl, fun _ => ⟨rfl, rfl, rfl, rfl⟩, fun _ => rfl⟩
  by_cases hb : s.haveBlobs = true
  case neg =>
    simp only [if_neg hb, pure_bind]
    refine .last (.assign (fun _ => k5) (.pure ⟨?_, ?_⟩))
    · simp
    · exact ⟨rfl, rfl, fun _ => ⟨rfl, rfl, rfl, rfl⟩, fun _ => rfl⟩
  case pos =>
    simp only [if_pos hb, bind_assoc, pure_bind]
    refine .call₂ k5 fun bl => .assign (fun _ => k5) ?_
    simp only [Option.map_some]
    refine .last (.assign (fun _ => hT nEff { c with it := { c.it with u := u, x := x, logdetj := logdetj, logl := logl, logp := logp, blobs := some bl } }
      ⟨rfl, rfl, fun _ => ⟨rfl, rfl, rfl, rfl⟩, fun h => by rw [hb] at h; cases h⟩) (.pure ⟨?_, ?_⟩))
    · simp
    · exact ⟨rfl, rfl, fun _ => ⟨rfl, rfl, rfl, rfl⟩, fun h => by rw [hb] at h; cases h⟩

theorem trainFlowX_spec {s : Sampler d B Φ} {u : List (Pt d)} {w : List F} :
    Beside q (trainFlowX rnd lo s u w) s (rnd.flowFit s.t s.flow u w) (fun v r s' => v = r ∧ s' = { s with flowUntrained := false, flow := r })
      (fun s' => s' = { s with flow := s'.flow, flowUntrained := s'.flowUntrained }) := by
  unfold trainFlowX
  refine .change (fun _ => rfl) ?_
  rw [← bind_pure (rnd.flowFit s.t s.flow u w)]
  simp only [bind_pure]
  nth_rw 2 [← bind_pure (rnd.flowFit s.t s.flow u w)]
  exact .fit rfl fun v _ => .change (fun _ => rfl) (.pure ⟨rfl, rfl⟩)

theorem fitThetaX_spec {s : Sampler d B Φ} {t : ℕ} {u : List (Pt d)} {w : List F} :
    Beside q (fitThetaX rnd lo t u w) s (rnd.geoFit t u w >>= fun g => pure { s with thetaGeometry := some g }) (fun _ r s' => s' = r ∧ r = { s with thetaGeometry := r.thetaGeometry })
      (fun s' => s' = { s with thetaGeometry := s'.thetaGeometry }) := by
  unfold fitThetaX
  exact .fit rfl fun g _ => .last (.change (fun _ => rfl) (.pure ⟨rfl, rfl⟩))

theorem fitUX_spec {s : Sampler d B Φ} {t : ℕ} {u : List (Pt d)} {w : List F} :
    Beside q (fitUX rnd lo t u w) s (rnd.geoFit t u w >>= fun g => pure { s with uGeometry := some g }) (fun _ r s' => s' = r ∧ r = { s with uGeometry := r.uGeometry })
      (fun s' => s' = { s with uGeometry := s'.uGeometry }) := by
  unfold fitUX
  exact .fit rfl fun g _ => .last (.change (fun _ => rfl) (.pure ⟨rfl, rfl⟩))

theorem trainX_spec {s : Sampler d B Φ} {c : Cur d B} (hc : s.cur = some c) :
    Beside q (trainX e rnd lo) s (train e rnd s c) (fun _ r s' => s' = r ∧ r.cur = some c ∧ r.haveBlobs = s.haveBlobs)
      (fun s' => s' = { s with flow := s'.flow, flowUntrained := s'.flowUntrained, uGeometry := s'.uGeometry, thetaGeometry := s'.thetaGeometry }) := by
  unfold trainX
  refine .look ?_
  rw [show train e rnd s c = (orErr PyErr.attributeError s.cur >>= fun c => train e rnd s c) by rw [hc]; rfl]
  refine .call rfl fun c' hc' => ?_
  rw [hc] at hc'
  cases hc'
  unfold train
  refine .call rfl fun w _ => .call rfl fun now _ => ?_
  cases now with
  | true =>
    simp only [if_true]
    refine .bind (trainFlowX_spec.mono ?_) fun v φ s' h k => ?_
    · intro s' h; rw [h]
    · obtain ⟨rfl, rfl⟩ := h
      refine (fitThetaX_spec.mono ?_).mono_ok ?_
      · intro s' h; rw [h]
      · rintro _ r s' ⟨rfl, h⟩
        exact ⟨rfl, by rw [h]; exact hc, by rw [h]⟩
  | false =>
    simp only [Bool.false_eq_true, if_false]
    refine (fitUX_spec.mono ?_).mono_ok ?_
    · intro s' h; rw [h]
    · rintro _ r s' ⟨rfl, h⟩
      exact ⟨rfl, by rw [h]; exact hc, by rw [h]⟩

theorem resampleX_spec {s : Sampler d B Φ} {c : Cur d B} (hc : s.cur = some c) :
    Beside q (resampleX e rnd) s (resampleStep e rnd s c) (fun _ r s' => s' = { s with cur := some r } ∧ SameRest q s.haveBlobs c.it r.it)
      (fun s' => ∃ c', s' = { s with cur := some c' } ∧ SameRest q s.haveBlobs c.it c'.it) := by
  have hT0 : ∃ c', s = { s with cur := some c' } ∧ SameRest q s.haveBlobs c.it c'.it := ⟨c, by rw [← hc], .refl _ _ _⟩
  have hT : ∀ c' : Cur d B, SameRest q s.haveBlobs c.it c'.it → ∃ c'', ({ s with cur := some c' } : Sampler d B Φ) = { s with cur := some c'' } ∧ SameRest q s.haveBlobs c.it c''.it :=
    fun c' h => ⟨c', rfl, h⟩
  unfold resampleX
  refine .look ?_
  rw [show resampleStep e rnd s c = (orErr PyErr.attributeError s.cur >>= fun c => resampleStep e rnd s c) by rw [hc]; rfl]
  refine .call hT0 fun c' hc' => ?_
  rw [hc] at hc'
  cases hc'
  unfold resampleStep
  refine .call hT0 fun w _ => .call hT0 fun idx _ => .call hT0 fun u _ => .assign (fun _ => hT0) ?_
  simp only [hc, Option.map_some]
  have k1 := hT { c with it := { c.it with u := u } } ⟨rfl, rfl, fun _ => ⟨rfl, rfl, rfl, rfl⟩, fun _ => rfl⟩
  refine .call k1 fun x _ => .assign (fun _ => k1) ?_
  simp only [Option.map_some]
  have k2 := hT { c with it := { c.it with u := u, x := x } } ⟨rfl, rfl, fun _ => ⟨rfl, rfl, rfl, rfl⟩, fun _ => rfl⟩
  refine .call k2 fun logdetj _ => .assign (fun _ => k2) ?_
  simp only [Option.map_some]
  have k3 := hT { c with it := { c.it with u := u, x := x, logdetj := logdetj } } ⟨rfl, rfl, fun _ => ⟨rfl, rfl, rfl, rfl⟩, fun _ => rfl⟩
  refine .call k3 fun logl _ => .assign (fun _ => k3) ?_
  simp only [Option.map_some]
  have k4 := hT { c with it := { c.it with u := u, x := x, logdetj := logdetj, logl := logl } } ⟨rfl, rfl, fun _ => ⟨rfl, rfl, rfl, rfl⟩, fun _ => rfl⟩
  refine .call k4 fun logp _ => .assign (fun _ => k4) ?_
  simp only [Option.map_some]
  have k5 := hT { c with it := { c.it with u := u, x := x, logdetj := logdetj, logl := logl, logp := logp } } ⟨rfl, rfl, fun _ => ⟨rfl, rfl, rfl, rfl⟩, fun _ => rfl⟩
  refine .call k5 fun bl hbl => .last (.assign (fun _ => k5) (.pure ⟨rfl, ⟨rfl, rfl, fun _ => ⟨rfl, rfl, rfl, rfl⟩, fun h => ?_⟩⟩))
  rw [h] at hbl
  simp only [resampleBlobs, Bool.false_eq_true, if_false, Except.ok.injEq] at hbl
  exact hbl.symm

/-- What a kernel whose results were not, or only partly, written back leaves. -/
def Written (q : Bool) (s : Sampler d B Φ) (c : Cur d B) (s' : Sampler d B Φ) : Prop :=
  ∃ c' : Cur d B, SameRest q s.haveBlobs c.it c'.it ∧
    s' = { s with cur := some c', calls := s'.calls, proposalScale := s'.proposalScale, evals := s'.evals }

theorem writeBackX_spec {s : Sampler d B Φ} {c : Cur d B} (hc : s.cur = some c) (r : McmcResult d (List B)) :
    Beside q (writeBackX s r) s (pure (writeBack s c r)) (fun _ r s' => s' = { r.1 with cur := some r.2 }) (Written q s c) := by
  have hT0 : Written q s c s := ⟨c, .refl _ _ _, by rw [← hc]⟩
  have hT : q = false → ∀ (c' : Cur d B) (n : ℕ) (p : F) (ev : List (Pt d)), c'.it.iter = c.it.iter → c'.it.logw = c.it.logw → (s.haveBlobs = false → c'.it.blobs = c.it.blobs) →
      Written q s c { s with cur := some c', calls := n, proposalScale := p, evals := ev } :=
    fun hq c' n p ev h1 h2 h3 => ⟨c', ⟨h1, h2, fun k => not_quiet hq k, h3⟩, rfl⟩
  unfold writeBackX
  refine .change (fun _ => hT0) ?_
  simp only [hc]
  refine .assign (fun hq => hT hq c _ _ _ rfl rfl fun _ => rfl) ?_
  simp only [Option.map_some]
  refine .assign (fun hq => hT hq _ _ _ _ rfl rfl fun _ => rfl) ?_
  simp only [Option.map_some]
  refine .assign (fun hq => hT hq _ _ _ _ rfl rfl fun _ => rfl) ?_
  simp only [Option.map_some]
  refine .assign (fun hq => hT hq _ _ _ _ rfl rfl fun _ => rfl) ?_
  simp only [Option.map_some]
  refine .assign (fun hq => hT hq _ _ _ _ rfl rfl fun _ => rfl) ?_
  simp only [Option.map_some]
  by_cases hb : s.haveBlobs = true
  case neg =>
    simp only [if_neg hb, pure_bind]
    refine .assign (fun hq => hT hq _ _ _ _ rfl rfl fun h => rfl) ?_
    simp only [Option.map_some]
    refine .assign (fun hq => hT hq _ _ _ _ rfl rfl fun h => rfl) ?_
    simp only [Option.map_some]
    refine .assign (fun hq => hT hq _ _ _ _ rfl rfl fun h => rfl) ?_
    simp only [Option.map_some]
    refine .assign (fun hq => hT hq _ _ _ _ rfl rfl fun h => rfl) ?_
    simp only [Option.map_some]
    refine .look ?_
    refine .callOk rfl (fun hq => hT hq _ _ _ _ rfl rfl fun h => rfl) ?_
    refine .change (fun hq => hT hq _ _ _ _ rfl rfl fun h => rfl) ?_
    refine .last (.change (fun hq => hT hq _ _ _ _ rfl rfl fun h => rfl) (.pure ?_))
    simp [writeBack, hb]
  case pos =>
    simp only [if_pos hb]
    refine .assign (fun hq => hT hq _ _ _ _ rfl rfl fun h => rfl) ?_
    simp only [Option.map_some]
    refine .assign (fun hq => hT hq _ _ _ _ rfl rfl fun h => absurd hb (by rw [h]; simp)) ?_
    simp only [Option.map_some]
    refine .assign (fun hq => hT hq _ _ _ _ rfl rfl fun h => absurd hb (by rw [h]; simp)) ?_
    simp only [Option.map_some]
    refine .assign (fun hq => hT hq _ _ _ _ rfl rfl fun h => absurd hb (by rw [h]; simp)) ?_
    simp only [Option.map_some]
    refine .assign (fun hq => hT hq _ _ _ _ rfl rfl fun h => absurd hb (by rw [h]; simp)) ?_
    simp only [Option.map_some]
    refine .look ?_
    refine .callOk rfl (fun hq => hT hq _ _ _ _ rfl rfl fun h => absurd hb (by rw [h]; simp)) ?_
    refine .change (fun hq => hT hq _ _ _ _ rfl rfl fun h => absurd hb (by rw [h]; simp)) ?_
    refine .last (.change (fun hq => hT hq _ _ _ _ rfl rfl fun h => absurd hb (by rw [h]; simp)) (.pure ?_))
    simp [writeBack, hb]

theorem mutateX_spec {s : Sampler d B Φ} {c : Cur d B} (hc : s.cur = some c) :
    Beside q (mutateX e rnd fuel) s (mutate e rnd fuel s c) (fun _ r s' => s' = { r.1 with cur := some r.2 }) (Written q s c) := by
  have hT0 : Written q s c s := ⟨c, .refl _ _ _, by rw [← hc]⟩
  unfold mutateX
  refine .look ?_
  rw [show mutate e rnd fuel s c = (orErr PyErr.attributeError s.cur >>= fun c => mutate e rnd fuel s c) by rw [hc]; rfl]
  refine .call hT0 fun c' hc' => ?_
  rw [hc] at hc'
  cases hc'
  unfold mutate
  exact .call hT0 fun ws _ => .call hT0 fun k _ => .call hT0 fun r _ => writeBackX_spec hc r

/-- All keys of an iteration appended one after the other are the iteration appended. -/
theorem storeX_spec {s : Sampler d B Φ} {ok : Unit → Sampler d B Φ → Sampler d B Φ → Prop} {err : Sampler d B Φ → Prop} (it : Iter d (List B)) (he : q = false → err s)
    (hok : ok () { s with particles := s.particles.update (Cols.full it) } { s with particles := s.particles.update (Cols.full it) }) :
    Beside q (storeX it) s (pure { s with particles := s.particles.update (Cols.full it) }) ok err := by
  have hs : ∀ h : Moment.storing = .elsewhere, err s := fun h => by cases h
  unfold storeX PyM.append
  refine .changeAt (fun hq _ => he hq) ?_
  iterate 13 refine .changeAt (fun _ h => by cases h) ?_
  refine .last (.changeAt (fun _ h => by cases h) (.pure ?_))
  exact hok

/-- The steps after `_reweight` do not read the attribute `current_particles`, they are handed it. -/
theorem train_cur (s : Sampler d B Φ) (c : Cur d B) (o : Option (Cur d B)) :
    train e rnd { s with cur := o } c = (train e rnd s c).map fun r => { r with cur := o } := by
  unfold train
  cases orErr .typeError c.weights with
  | error x => rfl
  | ok w =>
    change (trainNow e s c.it.beta >>= _) = Except.map _ (trainNow e s c.it.beta >>= _)
    cases trainNow e s c.it.beta with
    | error x => rfl
    | ok now =>
      cases now with
      | true =>
        change (rnd.flowFit s.t s.flow c.it.u w >>= _) = Except.map _ (rnd.flowFit s.t s.flow c.it.u w >>= _)
        cases rnd.flowFit s.t s.flow c.it.u w with
        | error x => rfl
        | ok flow =>
          change (rnd.geoFit s.t (c.it.u.map fun u => (e.flowFwd flow u).1) w >>= _) = Except.map _ (rnd.geoFit s.t (c.it.u.map fun u => (e.flowFwd flow u).1) w >>= _)
          cases rnd.geoFit s.t (c.it.u.map fun u => (e.flowFwd flow u).1) w <;> rfl
      | false =>
        change (rnd.geoFit s.t c.it.u w >>= _) = Except.map _ (rnd.geoFit s.t c.it.u w >>= _)
        cases rnd.geoFit s.t c.it.u w <;> rfl

theorem mutate_cur (s : Sampler d B Φ) (c : Cur d B) (o : Option (Cur d B)) :
    mutate e rnd fuel { s with cur := o } c = (mutate e rnd fuel s c).map fun r => ({ r.1 with cur := o }, r.2) := by
  unfold mutate
  change (toWalkers c.it s.haveBlobs >>= _) = Except.map _ (toWalkers c.it s.haveBlobs >>= _)
  cases toWalkers c.it s.haveBlobs with
  | error x => rfl
  | ok ws =>
    change (kernelEnv e s c.it.beta >>= _) = Except.map _ (kernelEnv e s c.it.beta >>= _)
    cases kernelEnv e s c.it.beta with
    | error x => rfl
    | ok k =>
      change (mcmc k fuel (rnd.mcmc s.t) ws >>= _) = Except.map _ (mcmc k fuel (rnd.mcmc s.t) ws >>= _)
      cases mcmc k fuel (rnd.mcmc s.t) ws <;> rfl

/-- The same iteration with the attribute kept up to date. -/
theorem smcStep_eq (s : Sampler d B Φ) : smcStep e rnd fuel s = (do
    let c ← orErr .attributeError s.cur
    let (s, c) ← reweight e fuel s c
    let s ← train e rnd { s with cur := some c } c
    let c ← resampleStep e rnd s c
    let (s, c) ← mutate e rnd fuel { s with cur := some c } c
    return { s with cur := some c, particles := s.particles.update (Cols.full c.it) }) := by
  unfold smcStep
  cases orErr .attributeError s.cur with
  | error x => rfl
  | ok c =>
    change (reweight e fuel s c >>= _) = (reweight e fuel s c >>= _)
    cases reweight e fuel s c with
    | error x => rfl
    | ok v =>
      obtain ⟨s1, c1⟩ := v
      change (train e rnd s1 c1 >>= _) = (train e rnd { s1 with cur := some c1 } c1 >>= _)
      rw [train_cur s1 c1 (some c1)]
      cases train e rnd s1 c1 with
      | error x => rfl
      | ok s2 =>
        change (resampleStep e rnd s2 c1 >>= _) = (resampleStep e rnd s2 c1 >>= _)
        cases resampleStep e rnd s2 c1 with
        | error x => rfl
        | ok c2 =>
          change (mutate e rnd fuel s2 c2 >>= _) = (mutate e rnd fuel { s2 with cur := some c2 } c2 >>= _)
          rw [mutate_cur s2 c2 (some c2)]
          cases mutate e rnd fuel s2 c2 <;> rfl

theorem smcStepX_spec (s : Sampler d B Φ) :
    Beside q (smcStepX e rnd lo fuel) s (smcStep e rnd fuel s) (fun _ r s' => s' = r) (fun s' => s' = s ∨ Touched q s s') := by
  rw [smcStep_eq]
  unfold smcStepX
  refine .look (.call (.inl rfl) fun c hc => ?_)
  have hc : s.cur = some c := orErr_ok hc
  refine .bind ((reweightX_spec hc).mono fun s' h => .inr h) fun _ v s1 h1 k1 => ?_
  obtain ⟨r1, c1⟩ := v
  obtain ⟨rfl, hs1⟩ := h1
  obtain ⟨nEff, beta, logz, ess, w, tr, -, -, -, -, rfl⟩ := reweight_ok k1
  refine .bind ((trainX_spec rfl).mono fun s' h => .inr ⟨c, c1, hc, hs1, ?_, ?_, ?_⟩) fun _ s2 s2' h2 k2 => ?_
  · rw [h]; simp
  · rw [h]
  · rw [h]
  obtain ⟨rfl, h2, h3⟩ := h2
  have h4 : s2'.t = s.t + 1 ∧ s2' = { s with t := s2'.t, nEffective := s2'.nEffective, flow := s2'.flow, flowUntrained := s2'.flowUntrained, uGeometry := s2'.uGeometry, thetaGeometry := s2'.thetaGeometry, calls := s2'.calls, proposalScale := s2'.proposalScale, evals := s2'.evals, cur := some c1 } := by
    rcases train_ok k2 with ⟨-, flow, g, rfl⟩ | ⟨-, g, rfl⟩ <;> exact ⟨rfl, rfl⟩
  refine .bind ((resampleX_spec h2).mono ?_) fun _ c2 s3 h5 k3 => ?_
  · rintro s' ⟨c', rfl, hr⟩
    refine .inr ⟨c, c', hc, hs1.trans (h3 ▸ hr), by simp [h4.1], by simp [h4.1], ?_⟩
    conv_lhs => rw [h4.2]
  obtain ⟨rfl, h5⟩ := h5
  have hw : ∀ s', Written q { s2' with cur := some c2 } c2 s' → Touched q s s' := by
    rintro s' ⟨c', hr, hs'⟩
    refine ⟨c, c', hc, hs1.trans ((h3 ▸ h5).trans (h3 ▸ hr)), by rw [hs']; simp [h4.1], by rw [hs']; simp [h4.1], ?_⟩
    rw [hs']
    conv_lhs => rw [h4.2]
  refine .bind ((mutateX_spec rfl).mono fun s' h => .inr (hw s' h)) fun _ v s4 h6 k4 => ?_
  subst h6
  have hw4 : q = false → Touched q s { v.1 with cur := some v.2 } := by
    intro hq
    obtain ⟨ws, k, r, -, -, -, hv⟩ := mutate_ok (s' := v.1) (c' := v.2) k4
    rw [Prod.ext_iff] at hv
    obtain ⟨hv1, hv2⟩ := hv
    simp only at hv1 hv2
    refine hw _ ⟨v.2, ⟨by rw [hv2]; rfl, by rw [hv2]; rfl, fun hh => not_quiet hq hh, fun hh => ?_⟩, ?_⟩
    · rw [hv2]; simp only [writeBack] at hh ⊢; simp [hh]
    · rw [hv1]; rfl
  refine .look (.callOk rfl (fun hq => .inr (hw4 hq)) ?_)
  exact storeX_spec _ (fun hq => .inr (hw4 hq)) rfl

/-! ### the warm-up -/

/-- What a failed warm-up iteration touches: the likelihood may have been called (and counted), and rows of the prior samples may have been replaced. -/
structure WarmTouched (e : SamplerEnv d B Φ) (rnd : Rnd d Φ) (i : ℕ) (s s' : Sampler d B Φ) : Prop where
  batch : ∃ b0 hb, warmupBatch e s i = .ok (b0, hb) ∧ s'.haveBlobs = hb ∧ s'.evals = s.evals ++ b0.x ∧
    (s'.priorSamples = s.priorSamples ∨ ∃ dst src x, infDonors b0.logl (rnd.warm s.t) = .ok (dst, src) ∧ copyRows b0.x dst src = .ok x ∧
      s'.priorSamples = s.priorSamples.map fun ps => writeSlice ps (i * e.nActive) x)
  rest : s' = { s with haveBlobs := s'.haveBlobs, evals := s'.evals, priorSamples := s'.priorSamples, calls := s'.calls }

/-- What a warm-up iteration interrupted near its end leaves: the batch made, and stored or not, but the iteration not counted. -/
def WarmMade (q : Bool) (e : SamplerEnv d B Φ) (rnd : Rnd d Φ) (i : ℕ) (s s' : Sampler d B Φ) : Prop :=
  q = false ∧ ∃ s4, warmupStep e rnd s i = .ok s4 ∧ (s' = { s4 with t := s.t, particles := s.particles } ∨ s' = { s4 with t := s.t })

theorem writeSlice_self {α : Type} (ps : List α) (k n : ℕ) : writeSlice ps k ((ps.drop k).take n) = ps := by
  unfold writeSlice
  rw [List.append_assoc, ← List.drop_drop]
  have : ((ps.drop k).take n) ++ (ps.drop k).drop ((ps.drop k).take n).length = ps.drop k := by
    rw [List.length_take]
    rcases le_total n (ps.drop k).length with h | h
    · rw [min_eq_left h, List.take_append_drop]
    · rw [min_eq_right h, List.take_of_length_le h, List.drop_length, List.append_nil]
  rw [this, List.take_append_drop]

theorem warmupBatch_slice {s : Sampler d B Φ} {i : ℕ} {b : Batch d B} {hb : Bool} (h : warmupBatch e s i = .ok (b, hb)) :
    ∃ ps, s.priorSamples = some ps ∧ b.x = (ps.drop (i * e.nActive)).take e.nActive := by
  unfold warmupBatch at h
  obtain ⟨ps, h1, h⟩ := bind_ok h
  obtain ⟨u, h2, h⟩ := bind_ok h
  obtain ⟨inv, h3, h⟩ := bind_ok h
  obtain ⟨⟨ll, bl, hb'⟩, h4, h⟩ := bind_ok h
  simp only [pure, Except.pure, Except.ok.injEq, Prod.mk.injEq] at h
  exact ⟨ps, orErr_ok h1, by rw [← h.1]⟩

theorem warmupStepX_spec (i : ℕ) (s : Sampler d B Φ) :
    Beside q (warmupStepX e rnd i) s (warmupStep e rnd s i) (fun _ r s' => s' = r) (fun s' => s' = s ∨ WarmTouched e rnd i s s' ∨ WarmMade q e rnd i s s') := by
  have hw : ∀ b0 hb b, warmupBatch e s i = .ok (b0, hb) → replaceInf b0 hb (rnd.warm s.t) = .ok b → ∃ s4, warmupStep e rnd s i = .ok s4 := by
    intro b0 hb b h1 h2
    unfold warmupStep
    simp only [h1, h2, bind, Except.bind]
    exact ⟨_, rfl⟩
  unfold warmupStepX
  rw [show warmupStep e rnd s i = warmupStep e rnd s i from rfl]
  nth_rw 1 [warmupStep]
  refine .look (.call (.inl rfl) fun v hv => ?_)
  obtain ⟨b0, hb⟩ := v
  have hT : ∀ x n, (x = s.priorSamples ∨ ∃ dst src y, infDonors b0.logl (rnd.warm s.t) = .ok (dst, src) ∧ copyRows b0.x dst src = .ok y ∧
        x = s.priorSamples.map fun ps => writeSlice ps (i * e.nActive) y) →
        WarmTouched e rnd i s { s with haveBlobs := hb, evals := s.evals ++ b0.x, calls := n, priorSamples := x } :=
      fun x n hx => ⟨⟨b0, hb, hv, rfl, rfl, hx⟩, rfl⟩
  refine .change (fun _ => .inl rfl) (.change (fun _ => .inr (.inl (hT _ _ (.inl rfl)))) ?_)
  refine .bind (ok₁ := fun v r s' => v = r ∧ s' = { s with haveBlobs := hb, evals := s.evals ++ b0.x, calls := s.calls + e.nActive, priorSamples := s.priorSamples.map fun ps => writeSlice ps (i * e.nActive) r.x } ∧ WarmTouched e rnd i s s') ?_ fun v r s1 h1 k1 => ?_
  · obtain ⟨ps, hps, hx⟩ := warmupBatch_slice hv
    unfold replaceInfX replaceInf
    refine .call (.inr (.inl (hT _ _ (.inl rfl)))) fun v hd => ?_
    obtain ⟨dst, src⟩ := v
    by_cases hz : dst = []
    · simp only [hz, if_true]
      refine .pure ⟨rfl, ?_, hT _ _ (.inl rfl)⟩
      have : s.priorSamples.map (fun ps => writeSlice ps (i * e.nActive) b0.x) = s.priorSamples := by
        rw [hps, Option.map_some, hx, writeSlice_self]
      rw [this]
    · simp only [hz, if_false]
      refine .call (.inr (.inl (hT _ _ (.inl rfl)))) fun x hcx => .change (fun _ => .inr (.inl (hT _ _ (.inl rfl)))) ?_
      have hT' := hT _ (s.calls + e.nActive) (.inr ⟨dst, src, x, hd, hcx, rfl⟩)
      refine .call (.inr (.inl hT')) fun u _ => .call (.inr (.inl hT')) fun _ _ => .call (.inr (.inl hT')) fun _ _ => .call (.inr (.inl hT')) fun _ _ => .call (.inr (.inl hT')) fun _ _ => ?_
      exact .pure ⟨rfl, rfl, hT'⟩
  · obtain ⟨rfl, rfl, ht1⟩ := h1
    have hmade : ∀ s4, warmupStep e rnd s i = .ok s4 → q = false → ∀ s' : Sampler d B Φ, s' = { s4 with t := s.t, particles := s.particles } ∨ s' = { s4 with t := s.t } →
        s' = s ∨ WarmTouched e rnd i s s' ∨ WarmMade q e rnd i s s' := fun s4 h4 hq s' h => .inr (.inr ⟨hq, s4, h4, h⟩)
    have hstep : warmupStep e rnd s i = .ok { s with
        haveBlobs := hb, evals := s.evals ++ b0.x, calls := s.calls + e.nActive
        priorSamples := s.priorSamples.map fun ps => writeSlice ps (i * e.nActive) v.x
        cur := some { it := warmupIter v e.nActive s.t (s.calls + e.nActive) s.nEffective, weights := none }
        particles := s.particles.update (Cols.full (warmupIter v e.nActive s.t (s.calls + e.nActive) s.nEffective)), t := s.t + 1 } := by
      unfold warmupStep
      simp only [hv, k1, bind, Except.bind]
      rfl
    refine .look (.change (fun hq => .inr (.inl ht1)) ?_)
    refine Beside.bind (err := fun s' => s' = s ∨ WarmTouched e rnd i s s' ∨ WarmMade q e rnd i s s') (ok₁ := fun _ w z => z = w) (a := pure _)
      (g := fun r => pure { r with t := s.t + 1 }) (storeX_spec _ (fun hq => ?_) rfl) fun _ w z hz hw => ?_
    · exact hmade _ hstep hq _ (.inl rfl)
    subst hz
    simp only [pure, Except.pure, Except.ok.injEq] at hw
    subst hw
    exact .last (.change (fun hq => hmade _ hstep hq _ (.inr rfl)) (.pure rfl))

/-! ### the run -/

/-- The parameters of the run are set; nothing else has happened. -/
def ArgsSet (s s' : Sampler d B Φ) : Prop := s' = { s with nTotal := s'.nTotal, nEvidence := s'.nEvidence }

theorem runInitX_spec (a : RunArgs) (s : Sampler d B Φ) :
    Beside q (runInitX e rnd a) s (runInit e rnd a s) (fun _ r s' => s' = r)
      (fun s' => ArgsSet s s' ∨ s.priorSamples = none ∧ ∃ x, s.scaler.fit (rnd.prior e.nPrior) = .error x) := by
  unfold runInitX
  refine .change (fun _ => .inl rfl) (.change (fun _ => .inl rfl) (.look ?_))
  by_cases hn : s.priorSamples.isNone = true
  · have hps : s.priorSamples = none := Option.isNone_iff_eq_none.mp hn
    simp only [if_pos hn]
    refine .change (fun _ => .inl rfl) ?_
    rw [show runInit e rnd a s = (s.scaler.fit (rnd.prior e.nPrior) >>= fun sc => pure { s with nTotal := a.nTotal, nEvidence := a.nEvidence, priorSamples := some (rnd.prior e.nPrior), scaler := sc }) by
      unfold runInit; simp only [hps]]
    refine .callAt (fun _ h => by cases h) (fun x hx => .inr ⟨hps, x, hx⟩) fun sc _ => ?_
    exact .last (.changeAt (fun _ h => by cases h) (.pure rfl))
  · obtain ⟨ps, hps⟩ : ∃ ps, s.priorSamples = some ps := by
      cases h : s.priorSamples with
      | none => rw [h] at hn; exact absurd rfl hn
      | some ps => exact ⟨ps, rfl⟩
    rw [show runInit e rnd a s = .ok { s with nTotal := a.nTotal, nEvidence := a.nEvidence } by unfold runInit; simp only [hps]]
    simp only [if_neg hn]
    exact .pure rfl

/-- What an interrupted assignment of the evidence leaves. -/
def EvidenceSet (e : SamplerEnv d B Φ) (rnd : Rnd d Φ) (s s' : Sampler d B Φ) : Prop :=
  ∃ s4, finalEvidence e rnd s = .ok s4 ∧ s' = { s with haveBlobs := s4.haveBlobs, evals := s'.evals, calls := s'.calls, logz := s'.logz, logzErr := s'.logzErr }

/-- How a run ends when something raises, or is interrupted: after some complete steps, in the middle of one (or between two). -/
inductive Left (q : Bool) (e : SamplerEnv d B Φ) (rnd : Rnd d Φ) : Sampler d B Φ → Sampler d B Φ → Prop
  | between {s} : Left q e rnd s s
  | args {s s'} : ArgsSet s s' → Left q e rnd s s'
  | init {s s'} (x : PyErr) : s.priorSamples = none → s.scaler.fit (rnd.prior e.nPrior) = .error x → Left q e rnd s s'
  | warm {s s'} (i : ℕ) : s.warmup = true → i < e.nPrior / e.nActive → WarmTouched e rnd i s s' → Left q e rnd s s'
  | made {s s'} (i : ℕ) : s.warmup = true → i < e.nPrior / e.nActive → WarmMade q e rnd i s s' → Left q e rnd s s'
  | smc {s s'} : s.warmup = false → Touched q s s' → Left q e rnd s s'
  | evidence {s s'} : s.warmup = false → EvidenceSet e rnd s s' → Left q e rnd s s'

theorem andThen_snd (a : Trace d B Φ) (f : Sampler d B Φ → Trace d B Φ) : (a.andThen f).2 = a.2 >>= fun s => (f s).2 := by
  obtain ⟨l, r⟩ := a
  cases r <;> rfl

theorem save_snd (k : Option ℕ) (t0 : ℕ) (s : Sampler d B Φ) : (Trace.save k t0 s).2 = saveNow k t0 s >>= fun _ => pure s := by
  unfold Trace.save
  cases saveNow k t0 s <;> rfl

/-- What is left behind by a piece of a run that started in `s` and raised. -/
def LeftAfter (q : Bool) (e : SamplerEnv d B Φ) (rnd : Rnd d Φ) (s s' : Sampler d B Φ) : Prop := ∃ m, Moves e rnd s m ∧ Left q e rnd m s'

theorem LeftAfter.after {s m s' : Sampler d B Φ} (h : Moves e rnd s m) (k : LeftAfter q e rnd m s') : LeftAfter q e rnd s s' := by
  obtain ⟨m', k1, k2⟩ := k
  exact ⟨m', h.trans k1, k2⟩

theorem warmupLoopX_spec {k : Option ℕ} {t0 : ℕ} (n : ℕ) : ∀ (i : ℕ) (s : Sampler d B Φ), s.warmup = true → i + n ≤ e.nPrior / e.nActive →
    Beside q (warmupLoopX e rnd k t0 n i) s (warmupLoop e rnd k t0 n i s).2 (fun _ r s' => s' = r) (LeftAfter q e rnd s) := by
  induction n with
  | zero => intro i s _ _; exact .pure rfl
  | succ n ih =>
    intro i s hw hi
    unfold warmupLoopX warmupLoop
    rw [andThen_snd, save_snd, bind_assoc]
    refine .look (.call ⟨s, .refl, .between⟩ fun l _ => ?_)
    simp only [pure_bind]
    rw [andThen_snd]
    change Beside q (warmupStepX e rnd i >>= _) s (warmupStep e rnd s i >>= _) _ _
    refine .bind ((warmupStepX_spec i s).mono ?_) fun _ r s1 h1 k1 => ?_
    · rintro s' (rfl | h | h)
      · exact ⟨_, .refl, .between⟩
      · exact ⟨_, .refl, .warm i hw (by omega) h⟩
      · exact ⟨_, .refl, .made i hw (by omega) h⟩
    · subst h1
      refine (ih (i + 1) s1 ((warmupStep_warmup k1).1.trans hw) (by omega)).mono fun s' h => h.after (.single (.warm i hw (by omega) k1))

theorem smcLoopX_spec {k : Option ℕ} {t0 : ℕ} (n : ℕ) : ∀ (s : Sampler d B Φ), s.warmup = false →
    Beside q (smcLoopX e rnd lo fuel k t0 n) s (smcLoop e rnd fuel k t0 n s).2 (fun _ r s' => s' = r) (LeftAfter q e rnd s) := by
  induction n with
  | zero =>
    intro s hw
    unfold smcLoopX smcLoop
    refine .look (.callIf (fun x hx => by simp only [hx]) ⟨s, .refl, .between⟩ fun more hm => ?_)
    simp only [hm]
    cases more with
    | true => exact .throw ⟨s, .refl, .between⟩
    | false => exact .pure rfl
  | succ n ih =>
    intro s hw
    unfold smcLoopX smcLoop
    refine .look (.callIf (fun x hx => by simp only [hx]) ⟨s, .refl, .between⟩ fun more hm => ?_)
    simp only [hm]
    cases more with
    | false => exact .pure rfl
    | true =>
      simp only [if_true]
      rw [andThen_snd, save_snd, bind_assoc]
      refine .call ⟨s, .refl, .between⟩ fun l _ => ?_
      simp only [pure_bind]
      rw [andThen_snd]
      change Beside q (smcStepX e rnd lo fuel >>= _) s (smcStep e rnd fuel s >>= _) _ _
      refine .bind ((smcStepX_spec s).mono ?_) fun _ r s1 h1 k1 => ?_
      · rintro s' (rfl | h)
        · exact ⟨_, .refl, .between⟩
        · exact ⟨_, .refl, .smc hw h⟩
      · subst h1
        refine (ih s1 ((smcStep_keep k1).1.trans hw)).mono fun s' h => h.after (.single (.smc fuel hw k1))

theorem runWarmupX_spec {a : RunArgs} {t0 : ℕ} (s : Sampler d B Φ) :
    Beside q (runWarmupX e rnd a t0) s (runWarmup e rnd a t0 s).2 (fun _ r s' => s' = r) (LeftAfter q e rnd s) := by
  unfold runWarmupX runWarmup
  refine .look ?_
  cases hw : s.warmup with
  | false => exact .pure rfl
  | true =>
    by_cases h0 : e.nActive = 0
    · simp only [h0, if_true]
      exact fun _ _ => .inr ⟨.inl rfl, s, .refl, .between⟩
    · simp only [h0, if_true, if_false]
      rw [andThen_snd]
      change Beside q (warmupLoopX e rnd a.saveEvery t0 (e.nPrior / e.nActive) 0 >>= _) s _ _ _
      refine .bind (warmupLoopX_spec _ 0 s hw (by omega)) fun _ r s1 h1 k1 => ?_
      subst h1
      obtain ⟨w1, -⟩ := Along.warmupLoop (e := e) (rnd := rnd) a.saveEvery t0 (e.nPrior / e.nActive) 0 s hw (by omega)
      exact .last (.change (fun _ => ⟨_, (w1.to_end _ k1).1, .between⟩) (.pure rfl))

/-- `run` with the state it leaves behind agrees with `run`: it returns in the same state or raises the same exception; and what is left behind then. -/
theorem runX_spec {a : RunArgs} {n : ℕ} (s : Sampler d B Φ) :
    Beside q (runX e rnd lo fuel n a) s (run e rnd fuel n a s).2 (fun _ r s' => s' = r) (LeftAfter q e rnd s) := by
  unfold runX run
  refine .look ?_
  rw [andThen_snd]
  change Beside q (runInitX e rnd a >>= _) s (runInit e rnd a s >>= _) _ _
  refine .bind ((runInitX_spec a s).mono ?_) fun _ r s1 h1 k1 => ?_
  · rintro s' (h | ⟨hn, x, hx⟩)
    · exact ⟨s, .refl, .args h⟩
    · exact ⟨s, .refl, .init x hn hx⟩
  subst h1
  have m1 : Moves e rnd s s1 := .single (.init a k1)
  rw [andThen_snd]
  refine .bind ((runWarmupX_spec s1).mono fun s' h => h.after m1) fun _ r s2 h2 k2 => ?_
  subst h2
  obtain ⟨w1, w2⟩ := Along.runWarmup (e := e) (rnd := rnd) a s.t s1
  have m2 := (w1.to_end s2 k2).1
  rw [andThen_snd]
  refine .bind ((smcLoopX_spec n s2 (w2 s2 k2)).mono fun s' h => h.after (m1.trans m2)) fun _ r s3 h3 k3 => ?_
  subst h3
  obtain ⟨l1, l2⟩ := Along.smcLoop (e := e) (rnd := rnd) fuel a.saveEvery s.t n s2 (w2 s2 k2)
  have m3 := (l1.to_end s3 k3).1
  rw [andThen_snd]
  unfold evidenceX
  have m4 := (m1.trans m2).trans m3
  have hw3 := (l2 s3 k3).1
  refine .look (.call ⟨s3, m4, .between⟩ fun s4 h4 => ?_)
  have hev : s4 = { s3 with haveBlobs := s4.haveBlobs, evals := s4.evals, calls := s4.calls, logz := s4.logz, logzErr := s4.logzErr } := by
    rcases finalEvidence_ok h4 with ⟨-, -, h5⟩ | ⟨-, lw, z, -, rfl⟩
    · obtain ⟨inv, ll', bl, hbl, -, -, rfl⟩ := computeEvidence_ok h5
      rfl
    · rfl
  have hE : ∀ (ev : List (Pt d)) (n : ℕ) (z : Option F) (ze : Option F), LeftAfter q e rnd s { s3 with haveBlobs := s4.haveBlobs, evals := ev, calls := n, logz := z, logzErr := ze } :=
    fun ev n z ze => ⟨s3, m4, .evidence hw3 ⟨s4, h4, rfl⟩⟩
  refine .change (fun _ => ⟨s3, m4, .between⟩) (.change (fun _ => hE _ _ _ _) (.change (fun _ => hE _ _ _ _) (.last (.change (fun _ => hE _ _ _ _) (.pure hev.symm)))))

end Poco
