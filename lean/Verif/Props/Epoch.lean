import Verif.Props.Flow

/-! C100: what one epoch of `Flow.fit` does to the parameters of the flow, and which losses it records. -/

namespace Poco.Spec
open F

variable {d : ℕ} {Ψ Ω : Type}

/-- A training row as the optimiser sees it: displaced by `noise · scale` times a standard normal draw, with its own weight. -/
noncomputable def perturbed (noise : Option F) (scale : F) (draw : Pt d) (row : Pt d × F) : Pt d × F :=
  match noise with
  | none => row
  | some s => (fun i => row.1 i + s * scale * draw i, row.2)

/-- One step of the optimiser per batch, in order, from the optimiser state and the parameters `p` to `q`; `ls` are the losses of
the batches, each for the parameters before its own step. -/
inductive Steps (net : FlowNet d Ψ Ω) (loss : Ψ → List (Pt d × F) → F) : List (List (Pt d × F)) → Ω × Ψ → Ω × Ψ → List F → Prop
  | done (p : Ω × Ψ) : Steps net loss [] p p []
  | step (b : List (Pt d × F)) (bs : List (List (Pt d × F))) (o : Ω) (psi : Ψ) (q : Ω × Ψ) (ls : List F) :
      Steps net loss bs (net.optim o psi b) q ls → Steps net loss (b :: bs) (o, psi) q (loss psi b :: ls)

/-- The batches of one pass over `rows`: every row exactly once, in some order, each with its own draw and its own weight; no
batch is empty or larger than the batch size. -/
def Batches (noise : Option F) (scale : F) (draws : ℕ → Pt d) (batchSize : ℕ) (rows : List (Pt d × F))
    (bs : List (List (Pt d × F))) : Prop :=
  (∃ order : List (Pt d × F), order.Perm rows ∧
    bs.flatten = (List.range order.length).zipWith (fun j row => perturbed noise scale (draws j) row) order) ∧
  ∀ b ∈ bs, b ≠ [] ∧ b.length ≤ batchSize

end Poco.Spec

namespace Poco
open F Spec

variable {d : ℕ} {Ψ Ω : Type}

theorem addNoise_eq (noise : Option F) (scale : F) (draw : ℕ → Pt d) (off : ℕ) (b : List (Pt d × F)) :
    addNoise noise scale draw off b = (List.range' off b.length).zipWith (fun j row => perturbed noise scale (draw j) row) b := by
  cases noise with
  | none =>
    simp only [addNoise, perturbed]
    induction b generalizing off with
    | nil => rfl
    | cons q b ih => rw [List.length_cons, List.range'_succ, List.zipWith_cons_cons, ← ih]
  | some s =>
    simp only [addNoise, perturbed]
    apply List.ext_getElem
    · simp
    · intro i h1 h2
      simp [List.getElem_range']

/-- the batches with their noise -/
noncomputable def noisyBatches (noise : Option F) (scale : F) (draw : ℕ → Pt d) : ℕ → List (List (Pt d × F)) → List (List (Pt d × F))
  | _, [] => []
  | off, b :: bs => addNoise noise scale draw off b :: noisyBatches noise scale draw (off + b.length) bs

theorem addNoise_length (noise : Option F) (scale : F) (draw : ℕ → Pt d) (off : ℕ) (b : List (Pt d × F)) :
    (addNoise noise scale draw off b).length = b.length := by
  rw [addNoise_eq]; simp

theorem noisyBatches_flatten (noise : Option F) (scale : F) (draw : ℕ → Pt d) (off : ℕ) (bs : List (List (Pt d × F))) :
    (noisyBatches noise scale draw off bs).flatten =
      (List.range' off bs.flatten.length).zipWith (fun j row => perturbed noise scale (draw j) row) bs.flatten := by
  induction bs generalizing off with
  | nil => rfl
  | cons b bs ih =>
    rw [noisyBatches, List.flatten_cons, List.flatten_cons, ih, addNoise_eq, List.length_append,
      ← List.range'_append_1, List.zipWith_append (by simp)]

theorem noisyBatches_sizes {noise : Option F} {scale : F} {draw : ℕ → Pt d} {n : ℕ} {bs : List (List (Pt d × F))}
    (h : ∀ b ∈ bs, b ≠ [] ∧ b.length ≤ n) : ∀ off, ∀ b ∈ noisyBatches noise scale draw off bs, b ≠ [] ∧ b.length ≤ n := by
  induction bs with
  | nil => intro off b hb; cases hb
  | cons c bs ih =>
    intro off b hb
    rw [noisyBatches, List.mem_cons] at hb
    rcases hb with rfl | hb
    · have := h c (by simp)
      rw [addNoise_length]
      refine ⟨fun h0 => this.1 ?_, this.2⟩
      have h1 := addNoise_length noise scale draw off c
      rw [h0] at h1
      exact List.length_eq_zero_iff.mp h1.symm
    · exact ih (fun b hb => h b (by simp [hb])) _ b hb

theorem loader_batches {noise : Option F} {scale : F} {draw : ℕ → Pt d} {n : ℕ} {shuffle : Bool} {visit : List ℕ}
    {rows : List (Pt d × F)} (hv : shuffle = true → IsPerm visit rows.length) {bs : List (List (Pt d × F))}
    (h : loader n shuffle visit rows = .ok bs) : Batches noise scale draw n rows (noisyBatches noise scale draw 0 bs) := by
  have hn : 0 < n := by
    by_contra hc
    unfold loader at h
    rw [if_pos (by omega)] at h
    cases h
  obtain ⟨bs', h1, h2, h3⟩ := C79_epoch_covers n hn shuffle visit rows hv
  rw [h] at h1
  cases h1
  refine ⟨⟨bs.flatten, h2, ?_⟩, noisyBatches_sizes h3 0⟩
  rw [noisyBatches_flatten, List.range_eq_range']

theorem F.fadd_assoc (a b c : F) : a + b + c = a + (b + c) := by
  cases a <;> cases b <;> cases c <;> first | rfl | (simp only [fin_add]; rw [add_assoc])

theorem F.fzero_add (a : F) : fin 0 + a = a := by
  cases a <;> first | rfl | simp

theorem trainPass_steps (net : FlowNet d Ψ Ω) (a : FitArgs) (weighted : Bool) (scale : F) (draw : ℕ → Pt d) :
    ∀ (bs : List (List (Pt d × F))) (off : ℕ) (o : Ω) (psi : Ψ) (acc : F), ∃ ls,
      Steps net (batchLoss net a weighted) (noisyBatches a.noise scale draw off bs) (o, psi)
        ((trainPass net a weighted scale draw bs off o psi acc).1, (trainPass net a weighted scale draw bs off o psi acc).2.1) ls ∧
      (trainPass net a weighted scale draw bs off o psi acc).2.2 = acc + sum ls
  | [], off, o, psi, acc => ⟨[], Steps.done _, by
      show acc = acc + 0
      cases acc <;> first | rfl | (show _ = fin _ + fin 0; simp)⟩
  | b :: bs, off, o, psi, acc => by
    obtain ⟨ls, h1, h2⟩ := trainPass_steps net a weighted scale draw bs (off + b.length)
      (net.optim o psi (addNoise a.noise scale draw off b)).1 (net.optim o psi (addNoise a.noise scale draw off b)).2
      (acc + batchLoss net a weighted psi (addNoise a.noise scale draw off b))
    refine ⟨batchLoss net a weighted psi (addNoise a.noise scale draw off b) :: ls, ?_, ?_⟩
    · rw [noisyBatches]
      exact Steps.step _ _ _ _ _ _ h1
    · simp only [trainPass]
      rw [h2, F.fadd_assoc]
      rfl

theorem validPass_sum (net : FlowNet d Ψ Ω) (a : FitArgs) (weighted : Bool) (scale : F) (draw : ℕ → Pt d) (psi : Ψ) :
    ∀ (bs : List (List (Pt d × F))) (off : ℕ) (acc : F), validPass net a weighted scale draw psi bs off acc =
      acc + sum ((noisyBatches a.noise scale draw off bs).map (batchLoss net a weighted psi))
  | [], off, acc => by
    show acc = acc + 0
    cases acc <;> first | rfl | (show _ = fin _ + fin 0; simp)
  | b :: bs, off, acc => by
    simp only [validPass, noisyBatches, List.map_cons]
    rw [validPass_sum net a weighted scale draw psi bs, F.fadd_assoc]
    rfl

end Poco

namespace Poco.Spec
open F

variable {d : ℕ} {Ψ Ω : Type}

/-- What one epoch does: the parameters change by one optimiser step per batch of the training set; the training loss is the sum
of the batch losses over the number of rows; the validation loss, if there is a validation set, is the same for the validation set
at the new parameters; the learning-rate schedule, if used, sees the validation loss, or else the training loss. -/
def Epoch (net : FlowNet d Ψ Ω) (a : FitArgs) (loss : Ψ → List (Pt d × F) → F) (scale : F) (rnd : FitRnd d) (epoch : ℕ)
    (train : List (Pt d × F)) (valid : Option (List (Pt d × F))) (o : Ω) (psi : Ψ) (o' : Ω) (psi' : Ψ) (tl : F) (vl : Option F) :
    Prop :=
  0 < train.length ∧
  (∃ bs ls o1, Batches a.noise scale (rnd.noise epoch false) a.batchSize train bs ∧ Steps net loss bs (o, psi) (o1, psi') ls ∧
    tl = sum ls / F.ofNat train.length ∧ o' = if a.annealing then net.sched o1 (vl.getD tl) else o1) ∧
  match valid with
  | none => vl = none
  | some v => 0 < v.length ∧ ∃ bs, Batches a.noise scale (rnd.noise epoch true) a.batchSize v bs ∧
      vl = some (sum (bs.map (loss psi')) / F.ofNat v.length)

/-- A sequence of epochs from `epoch` on, with the parameters after each. -/
inductive Epochs (net : FlowNet d Ψ Ω) (a : FitArgs) (loss : Ψ → List (Pt d × F) → F) (scale : F) (rnd : FitRnd d)
    (train : List (Pt d × F)) (valid : Option (List (Pt d × F))) : ℕ → Ω → Ψ → List Ψ → List F → List F → Prop
  | stop (k : ℕ) (o : Ω) (psi : Ψ) : Epochs net a loss scale rnd train valid k o psi [] [] []
  | next (k : ℕ) (o : Ω) (psi : Ψ) (o' : Ω) (psi' : Ψ) (tl : F) (vl : Option F) (ms : List Ψ) (ts vs : List F) :
      Epoch net a loss scale rnd k train valid o psi o' psi' tl vl → Epochs net a loss scale rnd train valid (k + 1) o' psi' ms ts vs →
      Epochs net a loss scale rnd train valid k o psi (psi' :: ms) (tl :: ts) (vl.toList ++ vs)

end Poco.Spec

namespace Poco
open F Spec

variable {d : ℕ} {Ψ Ω : Type}

theorem perSample_ok {l r : F} {n : ℕ} (h : perSample l n = .ok r) : 0 < n ∧ r = l / F.ofNat n := by
  unfold perSample at h
  split_ifs at h with h0
  cases h
  exact ⟨by omega, rfl⟩

/-- **C100**: one epoch.  The order in which a shuffling data loader visits its data set is a permutation. -/
theorem C100_epoch {net : FlowNet d Ψ Ω} {a : FitArgs} {data : FitData d} {rnd : FitRnd d} {k : ℕ} {o o' : Ω} {psi psi' : Ψ}
    {tl : F} {vl : Option F} (ht : a.shuffle = true → IsPerm (rnd.visit k false) data.train.length)
    (hv : a.shuffle = true → ∀ v, data.valid = some v → IsPerm (rnd.visit k true) v.length)
    (h : fitEpoch net a data rnd k o psi = .ok (o', psi', tl, vl)) :
    Epoch net a (batchLoss net a data.weighted) data.scale rnd k data.train data.valid o psi o' psi' tl vl := by
  unfold fitEpoch at h
  obtain ⟨bs, h1, h⟩ := bind_ok h
  obtain ⟨t, h2, h⟩ := bind_ok h
  obtain ⟨v, h3, h⟩ := bind_ok h
  simp only [pure, Except.pure, Except.ok.injEq, Prod.mk.injEq] at h
  obtain ⟨rfl, rfl, rfl, rfl⟩ := h
  obtain ⟨p1, p2⟩ := perSample_ok h2
  obtain ⟨ls, q1, q2⟩ := trainPass_steps net a data.weighted data.scale (rnd.noise k false) bs 0 o psi (fin 0)
  refine ⟨p1, ⟨_, ls, _, loader_batches ht h1, q1, ?_, rfl⟩, ?_⟩
  · rw [p2, q2, F.fzero_add]
  · unfold validate at h3
    cases hd : data.valid with
    | none => rw [hd] at h3; simp only [Except.ok.injEq] at h3; exact h3.symm
    | some w =>
      rw [hd] at h3
      obtain ⟨bs', g1, h3⟩ := bind_ok h3
      obtain ⟨l, g2, h3⟩ := bind_ok h3
      simp only [pure, Except.pure, Except.ok.injEq] at h3
      subst h3
      obtain ⟨r1, r2⟩ := perSample_ok g2
      refine ⟨r1, _, loader_batches (fun hs => hv hs w hd) g1, ?_⟩
      rw [r2, validPass_sum, F.fzero_add]

theorem fitMonitor_lists (k : ℕ) (st : FitState Ψ Ω) (o : Ω) (psi : Ψ) (tl : F) (vl : Option F) :
    (fitMonitor k st o psi tl vl).loss = st.loss ++ [tl] ∧ (fitMonitor k st o psi tl vl).valLoss = st.valLoss ++ vl.toList ∧
    (fitMonitor k st o psi tl vl).models = st.models ++ [psi] ∧ (fitMonitor k st o psi tl vl).opt = o ∧
    (fitMonitor k st o psi tl vl).params = psi := by
  simp only [fitMonitor]
  split_ifs <;> exact ⟨rfl, rfl, rfl, rfl, rfl⟩

theorem fitLoop_epochs {net : FlowNet d Ψ Ω} {a : FitArgs} {data : FitData d} {rnd : FitRnd d}
    (ht : a.shuffle = true → ∀ k, IsPerm (rnd.visit k false) data.train.length)
    (hv : a.shuffle = true → ∀ k v, data.valid = some v → IsPerm (rnd.visit k true) v.length) :
    ∀ (n k : ℕ) (st r : FitState Ψ Ω), fitLoop net a data rnd n k st = .ok r → ∃ ms ts vs,
      Epochs net a (batchLoss net a data.weighted) data.scale rnd data.train data.valid k st.opt st.params ms ts vs ∧
      r.models = st.models ++ ms ∧ r.loss = st.loss ++ ts ∧ r.valLoss = st.valLoss ++ vs
  | 0, k, st, r, h => by
    simp only [fitLoop, Except.ok.injEq] at h
    subst h
    exact ⟨[], [], [], Epochs.stop _ _ _, by simp, by simp, by simp⟩
  | n + 1, k, st, r, h => by
    simp only [fitLoop] at h
    obtain ⟨⟨o, psi, tl, vl⟩, he, h⟩ := bind_ok h
    simp only at h
    have hE := C100_epoch (fun hs => ht hs k) (fun hs => hv hs k) he
    obtain ⟨m1, m2, m3, m4, m5⟩ := fitMonitor_lists k st o psi tl vl
    split at h
    · simp only [Except.ok.injEq] at h
      subst h
      have := Epochs.next _ _ _ _ _ _ _ _ _ _ hE (Epochs.stop (k + 1) o psi)
      rw [List.append_nil] at this
      exact ⟨_, _, _, this, m3, m1, m2⟩
    · obtain ⟨ms, ts, vs, h1, h2, h3, h4⟩ := fitLoop_epochs ht hv n (k + 1) _ r h
      rw [m4, m5] at h1
      refine ⟨_, _, _, Epochs.next _ _ _ _ _ _ _ _ _ _ hE h1, ?_, ?_, ?_⟩
      · rw [h2, m3]; simp
      · rw [h3, m1]; simp
      · rw [h4, m2]; simp

/-- The size of the training set for `n` samples. -/
noncomputable def Spec.trainSize (split : ℝ) (n : ℕ) : ℕ := if 0 < split then min ⌊split * n⌋₊ n else n

/-- **C100**: the whole of `Flow.fit` with weights.  The samples, each with its weight, are divided into a training set and (if
`validation_split > 0`) a validation set; the recorded losses and the parameters after each epoch are those of consecutive epochs on
these two sets, from the parameters the flow came with. -/
theorem C100_fit {net : FlowNet d Ψ Ω} {a : FitArgs} {rnd : FitRnd d} {rows : List (Pt d × F)} {psi : Ψ} {o : Ω}
    {r : FitState Ψ Ω} (hp : a.shuffle = true → IsPerm rnd.perm rows.length)
    (hv : a.shuffle = true → ∀ k, IsPerm (rnd.visit k false) (trainSize a.validationSplit rows.length) ∧
      IsPerm (rnd.visit k true) (rows.length - trainSize a.validationSplit rows.length))
    (h : fit net a rnd (rows.map (·.1)) (some (rows.map (·.2))) psi o = .ok r) :
    ∃ (train : List (Pt d × F)) (valid : Option (List (Pt d × F))) (scale : F), (train ++ valid.getD []).Perm rows ∧
      train.length = trainSize a.validationSplit rows.length ∧ valid.isSome = decide (0 < a.validationSplit) ∧
      (∀ s, a.noise = some s → ∃ order : List (Pt d × F), order.Perm rows ∧ meanMinDist (order.map (·.1)) = .ok scale) ∧
      Epochs net a (batchLoss net a true) scale rnd train valid 0 o psi r.models r.loss r.valLoss := by
  unfold fit at h
  obtain ⟨data, hd, h⟩ := bind_ok h
  obtain ⟨out, ho, hperm⟩ := fitShuffle_perm a.shuffle rnd.perm rows hp
  have e1 : fitShuffle a.shuffle rnd.perm (rows.map (·.1)) = .ok (out.map (·.1)) := by rw [fitShuffle_map, ho]; rfl
  have e2 : shuffleWeights a.shuffle rnd.perm (some (rows.map (·.2))) = .ok (some (out.map (·.2))) := by
    unfold shuffleWeights; simp only; rw [fitShuffle_map, ho]; rfl
  unfold fitData at hd
  rw [e1, e2] at hd
  simp only [bind, Except.bind, fitSplit_rows] at hd
  cases hs : noiseScale a.noise (out.map (·.1)) with
  | error x => rw [hs] at hd; cases hd
  | ok sc =>
    rw [hs] at hd
    simp only [pure, Except.pure, Except.ok.injEq, Option.isSome_some] at hd
    have hlen : out.length = rows.length := hperm.length_eq
    have e4 : 0 < a.validationSplit →
        (truncInt (a.validationSplit * out.length)).toNat = ⌊a.validationSplit * rows.length⌋₊ := by
      intro h0
      have : (0 : ℝ) ≤ a.validationSplit * out.length := by positivity
      unfold truncInt
      rw [if_pos this, hlen, Int.floor_toNat]
    have ht : data.train.length = trainSize a.validationSplit rows.length := by
      rw [← hd]
      simp only [trainSize]
      split_ifs with h0
      · rw [List.length_take, e4 h0, hlen]
      · exact hlen
    have hva : ∀ v, data.valid = some v → v.length = rows.length - trainSize a.validationSplit rows.length := by
      intro v hv
      rw [← hd] at hv
      simp only [trainSize] at hv ⊢
      split_ifs at hv with h0
      cases hv
      rw [if_pos h0, List.length_drop, e4 h0, hlen]
      omega
    obtain ⟨ms, ts, vs, h1, h2, h3, h4⟩ := fitLoop_epochs (fun hs k => by rw [ht]; exact (hv hs k).1)
      (fun hs k v hdv => by rw [hva v hdv]; exact (hv hs k).2) a.epochs 0 _ r h
    simp only [List.nil_append] at h2 h3 h4
    have hw : data.weighted = true := by rw [← hd]
    rw [hw] at h1
    refine ⟨data.train, data.valid, data.scale, ?_, ht, ?_, ?_, ?_⟩
    · rw [← hd]
      simp only
      split
      · rw [Option.getD_some, List.take_append_drop]; exact hperm
      · rw [Option.getD_none, List.append_nil]; exact hperm
    · rw [← hd]
      simp only
      split_ifs with h0 <;> simp [h0]
    · intro s hns
      refine ⟨out, hperm, ?_⟩
      rw [← hd]
      unfold noiseScale at hs
      rw [hns] at hs
      exact hs
    · rw [h2, h3, h4]
      exact h1

theorem loader_total {n : ℕ} (hn : 0 < n) {shuffle : Bool} {visit : List ℕ} {rows : List (Pt d × F)}
    (hv : shuffle = true → IsPerm visit rows.length) : ∃ bs, loader n shuffle visit rows = .ok bs := by
  obtain ⟨bs, h, -⟩ := C79_epoch_covers n hn shuffle visit rows hv
  exact ⟨bs, h⟩

theorem perSample_total (l : F) {n : ℕ} (hn : 0 < n) : ∃ r, perSample l n = .ok r := by
  unfold perSample; rw [if_neg (by omega)]; exact ⟨_, rfl⟩

theorem fitEpoch_total (net : FlowNet d Ψ Ω) (a : FitArgs) (data : FitData d) (rnd : FitRnd d) (k : ℕ) (o : Ω) (psi : Ψ)
    (hb : 0 < a.batchSize) (h0 : 0 < data.train.length) (ht : a.shuffle = true → IsPerm (rnd.visit k false) data.train.length)
    (hv : ∀ v, data.valid = some v → 0 < v.length ∧ (a.shuffle = true → IsPerm (rnd.visit k true) v.length)) :
    ∃ q, fitEpoch net a data rnd k o psi = .ok q := by
  obtain ⟨bs, h1⟩ := loader_total hb ht
  unfold fitEpoch
  rw [h1]
  simp only [bind, Except.bind]
  obtain ⟨tl, h2⟩ := perSample_total (trainPass net a data.weighted data.scale (rnd.noise k false) bs 0 o psi (fin 0)).2.2 h0
  rw [h2]
  dsimp only
  have : ∀ psi, ∃ v, validate net a data rnd k psi = .ok v := by
    intro psi
    unfold validate
    cases hd : data.valid with
    | none => exact ⟨_, rfl⟩
    | some v =>
      obtain ⟨bs', g1⟩ := loader_total hb (hv v hd).2
      obtain ⟨l, g2⟩ := perSample_total (validPass net a data.weighted data.scale (rnd.noise k true) psi bs' 0 (fin 0)) (hv v hd).1
      simp only [bind, Except.bind, g1, g2]
      exact ⟨_, rfl⟩
  obtain ⟨v, h3⟩ := this (trainPass net a data.weighted data.scale (rnd.noise k false) bs 0 o psi (fin 0)).2.1
  rw [h3]
  exact ⟨_, rfl⟩

theorem fitLoop_total (net : FlowNet d Ψ Ω) (a : FitArgs) (data : FitData d) (rnd : FitRnd d)
    (hb : 0 < a.batchSize) (h0 : 0 < data.train.length) (ht : a.shuffle = true → ∀ k, IsPerm (rnd.visit k false) data.train.length)
    (hv : ∀ v, data.valid = some v → 0 < v.length ∧ (a.shuffle = true → ∀ k, IsPerm (rnd.visit k true) v.length)) :
    ∀ (n k : ℕ) (st : FitState Ψ Ω), ∃ r, fitLoop net a data rnd n k st = .ok r
  | 0, k, st => ⟨st, rfl⟩
  | n + 1, k, st => by
    obtain ⟨⟨o, psi, tl, vl⟩, h⟩ := fitEpoch_total net a data rnd k st.opt st.params hb h0 (fun hs => ht hs k)
      (fun v hd => ⟨(hv v hd).1, fun hs => (hv v hd).2 hs k⟩)
    simp only [fitLoop, h, bind, Except.bind]
    split_ifs
    · exact ⟨_, rfl⟩
    · exact fitLoop_total net a data rnd hb h0 ht hv n (k + 1) _

/-- **C100**: without noise, `Flow.fit` returns unless the batch size is zero or one of the sets is empty. -/
theorem C100_returns (net : FlowNet d Ψ Ω) (a : FitArgs) (rnd : FitRnd d) (rows : List (Pt d × F)) (psi : Ψ) (o : Ω)
    (hnoise : a.noise = none) (hb : 0 < a.batchSize) (h0 : 0 < trainSize a.validationSplit rows.length)
    (h1 : 0 < a.validationSplit → trainSize a.validationSplit rows.length < rows.length)
    (hp : a.shuffle = true → IsPerm rnd.perm rows.length)
    (hv : a.shuffle = true → ∀ k, IsPerm (rnd.visit k false) (trainSize a.validationSplit rows.length) ∧
      IsPerm (rnd.visit k true) (rows.length - trainSize a.validationSplit rows.length)) :
    ∃ r, fit net a rnd (rows.map (·.1)) (some (rows.map (·.2))) psi o = .ok r := by
  obtain ⟨out, ho, hperm⟩ := fitShuffle_perm a.shuffle rnd.perm rows hp
  have e1 : fitShuffle a.shuffle rnd.perm (rows.map (·.1)) = .ok (out.map (·.1)) := by rw [fitShuffle_map, ho]; rfl
  have e2 : shuffleWeights a.shuffle rnd.perm (some (rows.map (·.2))) = .ok (some (out.map (·.2))) := by
    unfold shuffleWeights; simp only; rw [fitShuffle_map, ho]; rfl
  have e3 : noiseScale a.noise (out.map (·.1)) = .ok (fin 0) := by rw [hnoise]; rfl
  have hlen : out.length = rows.length := hperm.length_eq
  have e4 : 0 < a.validationSplit →
      (truncInt (a.validationSplit * out.length)).toNat = ⌊a.validationSplit * rows.length⌋₊ := by
    intro h0
    have : (0 : ℝ) ≤ a.validationSplit * out.length := by positivity
    unfold truncInt
    rw [if_pos this, hlen, Int.floor_toNat]
  unfold fit fitData
  simp only [e1, e2, e3, fitSplit_rows, bind, Except.bind, pure, Except.pure]
  have ht : (if 0 < a.validationSplit then out.take (truncInt (a.validationSplit * out.length)).toNat else out).length =
      trainSize a.validationSplit rows.length := by
    unfold trainSize
    split_ifs with hs
    · rw [List.length_take, e4 hs, hlen]
    · exact hlen
  apply fitLoop_total
  · exact hb
  · rw [ht]; exact h0
  · intro hs k
    rw [ht]; exact (hv hs k).1
  · intro v hd
    simp only at hd
    split_ifs at hd with hs
    cases hd
    have : (out.drop (truncInt (a.validationSplit * out.length)).toNat).length =
        rows.length - trainSize a.validationSplit rows.length := by
      unfold trainSize
      rw [if_pos hs, List.length_drop, e4 hs, hlen]
      omega
    rw [this]
    exact ⟨by have := h1 hs; omega, fun hs k => (hv hs k).2⟩

/-! ### an instance -/

/-- A network with one parameter that counts the rows it was trained on. -/
noncomputable def Demo.countNet : FlowNet 1 ℕ Unit := ⟨fun _ _ => fin 0, fun _ psi b => ((), psi + b.length), fun o _ => o, fun _ => fin 0, fun _ => fin 0⟩

/-- Two epochs, batches of two, one third for validation being `1 - 2/3`; the data loader visits the training set backwards. -/
noncomputable def Demo.countArgs : FitArgs := ⟨2 / 3, 2, 2, 100, none, none, false, none, true⟩

def Demo.countRnd : FitRnd 1 := ⟨[2, 0, 1], fun _ b => if b then [0] else [1, 0], fun _ _ _ _ => fin 0⟩

noncomputable def Demo.countRows : List (Pt 1 × F) := [(fun _ => fin 1, fin 0.2), (fun _ => fin 2, fin 0.3), (fun _ => fin 4, fin 0.5)]

theorem Demo.countSize : trainSize countArgs.validationSplit countRows.length = 2 := by
  simp only [trainSize, countArgs, countRows, List.length_cons, List.length_nil]
  norm_num

theorem Demo.count_perms : (countArgs.shuffle = true → IsPerm countRnd.perm countRows.length) ∧
    (countArgs.shuffle = true → ∀ k, IsPerm (countRnd.visit k false) (trainSize countArgs.validationSplit countRows.length) ∧
      IsPerm (countRnd.visit k true) (countRows.length - trainSize countArgs.validationSplit countRows.length)) := by
  refine ⟨fun _ => ?_, fun _ k => ?_⟩
  · show IsPerm [2, 0, 1] 3
    unfold IsPerm; decide
  · rw [countSize]
    show IsPerm [1, 0] 2 ∧ IsPerm [0] 1
    unfold IsPerm; decide

example : ∃ r, fit Demo.countNet Demo.countArgs Demo.countRnd (Demo.countRows.map (·.1)) (some (Demo.countRows.map (·.2))) 0 () = .ok r ∧
    ∃ (train : List (Pt 1 × F)) (valid : Option (List (Pt 1 × F))) (scale : F), (train ++ valid.getD []).Perm Demo.countRows ∧
      train.length = 2 ∧ valid.isSome = true ∧
      Epochs Demo.countNet Demo.countArgs (batchLoss Demo.countNet Demo.countArgs true) scale Demo.countRnd train valid 0 () 0
        r.models r.loss r.valLoss := by
  obtain ⟨r, hr⟩ := C100_returns Demo.countNet Demo.countArgs Demo.countRnd Demo.countRows 0 () rfl (by norm_num [Demo.countArgs])
    (by rw [Demo.countSize]; norm_num) (fun _ => by rw [Demo.countSize]; simp [Demo.countRows]) Demo.count_perms.1 Demo.count_perms.2
  obtain ⟨t, v, sc, h1, h2, h3, -, h5⟩ := C100_fit Demo.count_perms.1 Demo.count_perms.2 hr
  rw [Demo.countSize] at h2
  exact ⟨r, hr, t, v, sc, h1, h2, by rw [h3]; norm_num [Demo.countArgs], h5⟩

end Poco
