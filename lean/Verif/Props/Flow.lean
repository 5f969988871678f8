import Verif.Spec.Flow
import Verif.Lemmas.Run
import Mathlib.Tactic.Linarith
import Mathlib.Tactic.Positivity
import Mathlib.Data.Nat.Size
import Mathlib.Tactic.FieldSimp
import Mathlib.Analysis.Calculus.FDeriv.Comp
import Mathlib.Analysis.Calculus.FDeriv.Add
import Mathlib.Topology.Algebra.Module.Determinant
import Mathlib.Analysis.SpecialFunctions.Log.Basic
import Mathlib.Data.List.Perm.Basic

/-! Training of the flow and its numpy wrapper (C66–C70, C77–C79). -/

namespace Poco
open F Spec

variable {d : ℕ} {Ψ Ω : Type}

/-! ### order facts on floats -/

theorem F.lt_of_lt_of_lt {a b c : F} (h1 : a < b) (h2 : b < c) : a < c := by
  change F.lt a b at h1; change F.lt b c at h2; change F.lt a c
  cases a <;> cases b <;> cases c <;> simp only [F.lt] at * ; exact lt_trans h1 h2

theorem F.lt_of_le_of_lt {a b c : F} (h1 : a ≤ b) (h2 : b < c) : a < c := by
  change F.le a b at h1; change F.lt b c at h2; change F.lt a c
  cases a <;> cases b <;> cases c <;> simp only [F.lt, F.le] at * ; exact _root_.lt_of_le_of_lt h1 h2

theorem F.not_lt_self (a : F) : ¬ a < a := by
  intro h; change F.lt a a at h; cases a <;> simp [F.lt] at h

theorem F.lt_pinf_of_lt {a b : F} (h : a < b) : a < pinf := by
  change F.lt a b at h; change F.lt a pinf
  cases a <;> cases b <;> simp_all [F.lt]

theorem F.not_le_of_lt {a b : F} (h : a < b) : ¬ b ≤ a := by
  intro h'; change F.lt a b at h; change F.le b a at h'
  cases a <;> cases b <;> simp [F.lt, F.le] at h h'; linarith

theorem F.lt_of_lt_of_not_lt {a b c : F} (h1 : a < b) (h2 : ¬ c < b) : ¬ c < a :=
  fun h => h2 (F.lt_of_lt_of_lt h h1)

theorem F.le_of_not_lt {a b : F} (h1 : a < pinf) (h2 : b < pinf) (h : ¬ a < b) : b ≤ a := by
  change F.lt a pinf at h1; change F.lt b pinf at h2; change ¬ F.lt a b at h; change F.le b a
  cases a <;> cases b <;> simp_all [F.lt, F.le]

/-- The best epoch is determined by the history. -/
theorem Spec.BestEpoch.unique {l : List F} {b b' : ℕ} (h : BestEpoch l b) (h' : BestEpoch l b') : b = b' := by
  rcases h with ⟨v, h1, h2, h3, h4⟩ | ⟨h1, h2⟩ <;> rcases h' with ⟨v', g1, g2, g3, g4⟩ | ⟨g1, g2⟩
  · rcases Nat.lt_trichotomy b b' with hlt | he | hlt
    · exact absurd (F.le_of_not_lt g2 h2 (h3 v' (List.mem_of_getElem? g1))) (g4 b v hlt h1)
    · exact he
    · exact absurd (F.le_of_not_lt h2 g2 (g3 v (List.mem_of_getElem? h1))) (h4 b' v' hlt g1)
  · exact absurd h2 (g2 v (List.mem_of_getElem? h1))
  · exact absurd g2 (h2 v' (List.mem_of_getElem? g1))
  · rw [h1, g1]

/-! ### the epoch loop -/

/-- The history that is monitored. -/
def mon (hasValid : Bool) (st : FitState Ψ Ω) : List F := if hasValid then st.valLoss else st.loss

/-- After `k` epochs. -/
structure FitInv (hasValid : Bool) (psi0 : Ψ) (k : ℕ) (st : FitState Ψ Ω) : Prop where
  loss : st.loss.length = k
  val : st.valLoss.length = if hasValid then k else 0
  models : st.models.length = k
  last : st.params = (st.models.getLast?).getD psi0
  best : (∃ v, (mon hasValid st)[st.bestEpoch]? = some v ∧ v < pinf ∧ (∀ w ∈ mon hasValid st, ¬ w < v) ∧
      (∀ j w, j < st.bestEpoch → (mon hasValid st)[j]? = some w → ¬ w ≤ v) ∧ st.bestLoss = v ∧
      st.models[st.bestEpoch]? = some st.bestModel) ∨
    (st.bestEpoch = 0 ∧ (∀ w ∈ mon hasValid st, ¬ w < pinf) ∧ st.bestLoss = pinf ∧ st.bestModel = psi0)
  early : st.early = false

theorem FitInv.mon_length {hv : Bool} {psi0 : Ψ} {k : ℕ} {st : FitState Ψ Ω} (h : FitInv hv psi0 k st) :
    (mon hv st).length = k := by
  unfold mon
  cases hv with
  | false => simpa using h.loss
  | true => simpa using h.val

theorem FitInv.bestEpoch {hv : Bool} {psi0 : Ψ} {k : ℕ} {st : FitState Ψ Ω} (h : FitInv hv psi0 k st) :
    BestEpoch (mon hv st) st.bestEpoch := by
  rcases h.best with ⟨v, h1, h2, h3, h4, -⟩ | ⟨h1, h2, -⟩
  · exact Or.inl ⟨v, h1, h2, h3, h4⟩
  · exact Or.inr ⟨h1, h2⟩

theorem FitInv.monitor {hv : Bool} {psi0 : Ψ} {k : ℕ} {st : FitState Ψ Ω} (h : FitInv hv psi0 k st) (opt : Ω) (psi : Ψ)
    (tl : F) (vl : Option F) (hvl : vl.isSome = hv) :
    FitInv hv psi0 (k + 1) (fitMonitor k st opt psi tl vl) ∧
      mon hv (fitMonitor k st opt psi tl vl) = mon hv st ++ [vl.getD tl] ∧
      (fitMonitor k st opt psi tl vl).models = st.models ++ [psi] := by
  have hmon : ∀ (b : ℕ) (bl : F) (bm : Ψ),
      mon hv (FitState.mk psi opt (st.loss ++ [tl]) (st.valLoss ++ vl.toList) b bl bm (st.models ++ [psi]) st.early)
        = mon hv st ++ [vl.getD tl] := by
    intro b bl bm
    unfold mon
    cases vl with
    | none => simp only [Option.isSome_none] at hvl; subst hvl; simp
    | some v => simp only [Option.isSome_some] at hvl; subst hvl; simp
  have hlen := h.mon_length
  have hl1 : (st.loss ++ [tl]).length = k + 1 := by rw [List.length_append, h.loss]; rfl
  have hl2 : (st.valLoss ++ vl.toList).length = if hv then k + 1 else 0 := by
    rw [List.length_append, h.val]
    cases vl with
    | none => simp only [Option.isSome_none] at hvl; subst hvl; simp
    | some v => simp only [Option.isSome_some] at hvl; subst hvl; simp
  have hl3 : (st.models ++ [psi]).length = k + 1 := by rw [List.length_append, h.models]; rfl
  have hlast : psi = ((st.models ++ [psi]).getLast?).getD psi0 := by simp
  unfold fitMonitor
  simp only
  by_cases hlt : vl.getD tl < st.bestLoss
  · rw [if_pos hlt]
    refine ⟨⟨hl1, hl2, hl3, hlast, Or.inl ⟨vl.getD tl, ?_, F.lt_pinf_of_lt hlt, ?_, ?_, rfl, ?_⟩, h.early⟩, hmon _ _ _, rfl⟩
    · rw [hmon, ← hlen, List.getElem?_append_right le_rfl]; simp
    · rw [hmon]
      intro w hw
      rcases List.mem_append.mp hw with hw | hw
      · rcases h.best with ⟨v, h1, h2, h3, h4, h5, -⟩ | ⟨h1, h2, -⟩
        · rw [h5] at hlt
          exact F.lt_of_lt_of_not_lt hlt (h3 w hw)
        · exact fun hh => h2 w hw (F.lt_pinf_of_lt hh)
      · rw [List.mem_singleton.mp hw]; exact F.not_lt_self _
    · rw [hmon]
      intro j w hj hw
      have hj' : j < k := hj
      rw [List.getElem?_append_left (by omega)] at hw
      have hm := List.mem_of_getElem? hw
      intro hle
      rcases h.best with ⟨v, h1, h2, h3, h4, h5, -⟩ | ⟨h1, h2, -⟩
      · rw [h5] at hlt
        exact h3 w hm (F.lt_of_le_of_lt hle hlt)
      · exact h2 w hm (F.lt_of_le_of_lt hle (F.lt_pinf_of_lt hlt))
    · show (st.models ++ [psi])[k]? = some psi
      rw [← h.models, List.getElem?_append_right le_rfl]; simp
  · rw [if_neg hlt]
    refine ⟨⟨hl1, hl2, hl3, hlast, ?_, h.early⟩, hmon _ _ _, rfl⟩
    rw [hmon]
    rcases h.best with ⟨v, h1, h2, h3, h4, h5, h6⟩ | ⟨h1, h2, h3, h4⟩
    · refine Or.inl ⟨v, ?_, h2, ?_, ?_, h5, ?_⟩
      · obtain ⟨hb, -⟩ := List.getElem?_eq_some_iff.mp h1
        rw [List.getElem?_append_left hb]; exact h1
      · intro w hw
        rcases List.mem_append.mp hw with hw | hw
        · exact h3 w hw
        · rw [List.mem_singleton.mp hw, ← h5]; exact hlt
      · intro j w hj hw
        obtain ⟨hb, -⟩ := List.getElem?_eq_some_iff.mp h1
        have : j < (mon hv st).length := lt_trans hj hb
        rw [List.getElem?_append_left this] at hw
        exact h4 j w hj hw
      · obtain ⟨hb, -⟩ := List.getElem?_eq_some_iff.mp h6
        show (st.models ++ [psi])[st.bestEpoch]? = some st.bestModel
        rw [List.getElem?_append_left hb]; exact h6
    · refine Or.inr ⟨h1, ?_, h3, h4⟩
      intro w hw
      rcases List.mem_append.mp hw with hw | hw
      · exact h2 w hw
      · rw [List.mem_singleton.mp hw, ← h3]; exact hlt

theorem fitEpoch_val {net : FlowNet d Ψ Ω} {a : FitArgs} {data : FitData d} {rnd : FitRnd d} {k : ℕ} {o o' : Ω} {p p' : Ψ} {tl : F}
    {vl : Option F} (h : fitEpoch net a data rnd k o p = .ok (o', p', tl, vl)) : vl.isSome = data.valid.isSome := by
  unfold fitEpoch at h
  obtain ⟨bs, -, h⟩ := bind_ok h
  obtain ⟨t, -, h⟩ := bind_ok h
  obtain ⟨v, hv, h⟩ := bind_ok h
  simp only [pure, Except.pure, Except.ok.injEq, Prod.mk.injEq] at h
  obtain ⟨-, -, -, rfl⟩ := h
  unfold validate at hv
  cases hd : data.valid with
  | none => rw [hd] at hv; simp only [Except.ok.injEq] at hv; rw [← hv]; rfl
  | some w =>
    rw [hd] at hv
    obtain ⟨bs, -, hv⟩ := bind_ok hv
    obtain ⟨l, -, hv⟩ := bind_ok hv
    simp only [pure, Except.pure, Except.ok.injEq] at hv
    rw [← hv]; rfl

/-- What the loop leaves. -/
structure FitEnd (hasValid : Bool) (psi0 : Ψ) (P N k : ℕ) (r : FitState Ψ Ω) : Prop where
  atMost : r.loss.length ≤ N
  atLeast : k < N → k < r.loss.length
  ge : k ≤ r.loss.length
  val : r.valLoss.length = if hasValid then r.loss.length else 0
  modelsLen : r.models.length = r.loss.length
  wentOn : ∀ j b, k ≤ j → j + 1 < r.loss.length → BestEpoch ((mon hasValid r).take (j + 1)) b → j - b < P
  stopped : r.early = true → ∃ b, BestEpoch (mon hasValid r) b ∧ P ≤ r.loss.length - 1 - b ∧ 0 < r.loss.length ∧
    (r.models[b]? = some r.params ∧ (∃ v, (mon hasValid r)[b]? = some v ∧ v < pinf) ∨
      r.params = psi0 ∧ ∀ w ∈ mon hasValid r, ¬ w < pinf)
  ranOut : r.early = false → r.loss.length = N ∧ r.params = (r.models.getLast?).getD psi0 ∧
    ∀ b, k < N → BestEpoch (mon hasValid r) b → r.loss.length - 1 - b < P

theorem fitLoop_end (net : FlowNet d Ψ Ω) (a : FitArgs) (data : FitData d) (rnd : FitRnd d) (psi0 : Ψ) :
    ∀ (n k : ℕ) (st r : FitState Ψ Ω), FitInv data.valid.isSome psi0 k st → fitLoop net a data rnd n k st = .ok r →
      FitEnd data.valid.isSome psi0 (3 * a.patience / 2) (k + n) k r ∧
      mon data.valid.isSome st = (mon data.valid.isSome r).take k
  | 0, k, st, r, hi, h => by
    simp only [fitLoop, Except.ok.injEq] at h
    subst h
    refine ⟨⟨by rw [hi.loss]; omega, fun h => by omega, hi.loss.ge, ?_, by rw [hi.models, hi.loss], ?_, ?_, ?_⟩, ?_⟩
    · rw [hi.val, hi.loss]
    · intro j b h1 h2; rw [hi.loss] at h2; omega
    · intro h; rw [hi.early] at h; cases h
    · exact fun _ => ⟨by rw [hi.loss]; rfl, hi.last, fun b hb => by omega⟩
    · rw [← hi.mon_length, List.take_length]
  | n + 1, k, st, r, hi, h => by
    simp only [fitLoop] at h
    obtain ⟨⟨opt, psi, tl, vl⟩, he, h⟩ := bind_ok h
    simp only at h
    obtain ⟨hi', hm, hmod⟩ := hi.monitor opt psi tl vl (fitEpoch_val he)
    split at h
    · rename_i hP
      simp only [Except.ok.injEq] at h
      subst h
      have hmr : mon data.valid.isSome { fitMonitor k st opt psi tl vl with
          params := (fitMonitor k st opt psi tl vl).bestModel, early := true } = mon data.valid.isSome (fitMonitor k st opt psi tl vl) := rfl
      refine ⟨⟨?_, ?_, ?_, ?_, ?_, ?_, ?_, ?_⟩, ?_⟩
      · show (fitMonitor k st opt psi tl vl).loss.length ≤ _
        rw [hi'.loss]; omega
      · intro _
        show k < (fitMonitor k st opt psi tl vl).loss.length
        rw [hi'.loss]; omega
      · show k ≤ (fitMonitor k st opt psi tl vl).loss.length
        rw [hi'.loss]; omega
      · show (fitMonitor k st opt psi tl vl).valLoss.length = if _ then (fitMonitor k st opt psi tl vl).loss.length else 0
        rw [hi'.val, hi'.loss]
      · show (fitMonitor k st opt psi tl vl).models.length = (fitMonitor k st opt psi tl vl).loss.length
        rw [hi'.models, hi'.loss]
      · intro j b h1 h2
        have h2 : j + 1 < (fitMonitor k st opt psi tl vl).loss.length := h2
        rw [hi'.loss] at h2; omega
      · intro _
        refine ⟨(fitMonitor k st opt psi tl vl).bestEpoch, by rw [hmr]; exact hi'.bestEpoch, ?_, ?_, ?_⟩
        · show _ ≤ (fitMonitor k st opt psi tl vl).loss.length - 1 - _
          rw [hi'.loss]; exact hP
        · show 0 < (fitMonitor k st opt psi tl vl).loss.length
          rw [hi'.loss]; omega
        · rw [hmr]
          rcases hi'.best with ⟨v, g1, g2, -, -, -, g6⟩ | ⟨-, g2, -, g4⟩
          · exact Or.inl ⟨g6, v, g1, g2⟩
          · exact Or.inr ⟨g4, g2⟩
      · intro hf; cases hf
      · rw [hmr, hm, List.take_append_of_le_length (by rw [hi.mon_length]), ← hi.mon_length, List.take_length]
    · rename_i hP
      obtain ⟨hE, hT⟩ := fitLoop_end net a data rnd psi0 n (k + 1) _ r hi' h
      have hb' := hi'.bestEpoch
      refine ⟨⟨by have := hE.atMost; omega, fun _ => by have := hE.ge; omega, by have := hE.ge; omega, hE.val, hE.modelsLen, ?_,
        hE.stopped, ?_⟩, ?_⟩
      · intro j b h1 h2 hb
        by_cases hj : j = k
        · subst hj
          rw [← hT] at hb
          rw [hb.unique hb']
          omega
        · exact hE.wentOn j b (by omega) h2 hb
      · intro hf
        obtain ⟨g1, g2, g3⟩ := hE.ranOut hf
        refine ⟨by rw [g1]; omega, g2, fun b _ hb => ?_⟩
        by_cases hn : n = 0
        · subst hn
          have hlen : (mon data.valid.isSome r).length = r.loss.length := by
            unfold mon
            cases hv : data.valid.isSome with
            | false => rfl
            | true => have := hE.val; rw [hv] at this; simpa using this
          rw [g1] at hlen
          have : (mon data.valid.isSome r).take (k + 1) = mon data.valid.isSome r :=
            List.take_of_length_le (by omega)
          rw [this] at hT
          rw [← hT] at hb
          rw [g1, hb.unique hb']
          omega
        · exact g3 b (by omega) hb
      · have : (mon data.valid.isSome r).take k = ((mon data.valid.isSome r).take (k + 1)).take k := by
          rw [List.take_take]; congr 1; omega
        rw [this, ← hT, hm, List.take_append_of_le_length (by rw [hi.mon_length]), ← hi.mon_length, List.take_length]

/-! ### the data -/

theorem fitData_ok {a : FitArgs} {rnd : FitRnd d} {x : List (Pt d)} {w : Option (List F)} {data : FitData d}
    (h : fitData a rnd x w = .ok data) : ∃ x' w', fitShuffle a.shuffle rnd.perm x = .ok x' ∧
      shuffleWeights a.shuffle rnd.perm w = .ok w' ∧ fitSplit a.validationSplit x' w' = .ok (data.train, data.valid) ∧
      data.weighted = w'.isSome := by
  unfold fitData at h
  obtain ⟨x', h1, h⟩ := bind_ok h
  obtain ⟨w', h2, h⟩ := bind_ok h
  obtain ⟨sc, h3, h⟩ := bind_ok h
  obtain ⟨⟨tr, va⟩, h4, h⟩ := bind_ok h
  simp only [pure, Except.pure, Except.ok.injEq] at h
  subst h
  exact ⟨x', w', h1, h2, h4, rfl⟩

theorem fitSplit_valid {s : ℝ} {x : List (Pt d)} {w : Option (List F)} {t : List (Pt d × F)} {v : Option (List (Pt d × F))}
    (h : fitSplit s x w = .ok (t, v)) : v.isSome = decide (0 < s) := by
  unfold fitSplit at h
  split at h
  · obtain ⟨t', -, h⟩ := bind_ok h
    obtain ⟨v', -, h⟩ := bind_ok h
    simp only [pure, Except.pure, Except.ok.injEq, Prod.mk.injEq] at h
    rw [← h.2]
    simpa using ‹0 < s›
  · obtain ⟨t', -, h⟩ := bind_ok h
    simp only [pure, Except.pure, Except.ok.injEq, Prod.mk.injEq] at h
    rw [← h.2]
    simpa using ‹¬ 0 < s›

theorem fit_end {net : FlowNet d Ψ Ω} {a : FitArgs} {rnd : FitRnd d} {x : List (Pt d)} {w : Option (List F)} {psi : Ψ} {opt : Ω}
    {r : FitState Ψ Ω} (h : fit net a rnd x w psi opt = .ok r) :
    FitEnd (decide (0 < a.validationSplit)) psi (3 * a.patience / 2) a.epochs 0 r := by
  unfold fit at h
  obtain ⟨data, hd, h⟩ := bind_ok h
  obtain ⟨x', w', -, -, hs, -⟩ := fitData_ok hd
  have hv := fitSplit_valid hs
  have := (fitLoop_end net a data rnd psi a.epochs 0 _ r ?_ h).1
  · rw [hv, zero_add] at this
    exact this
  · refine ⟨rfl, by simp, rfl, rfl, Or.inr ⟨rfl, ?_, rfl, rfl⟩, rfl⟩
    unfold mon
    simp

/-- The history `fit` monitors: the validation losses if there is a validation set, else the training losses. -/
noncomputable def monitoredLosses (a : FitArgs) (r : FitState Ψ Ω) : List F := if 0 < a.validationSplit then r.valLoss else r.loss

theorem mon_eq (a : FitArgs) (r : FitState Ψ Ω) : mon (decide (0 < a.validationSplit)) r = monitoredLosses a r := by
  unfold mon monitoredLosses
  simp

theorem floor_patience (p : ℕ) : ⌊(1.5 : ℝ) * p⌋₊ = 3 * p / 2 := by
  rw [Nat.floor_eq_iff (by positivity)]
  have h1 : 2 * (3 * p / 2) ≤ 3 * p := by omega
  have h2 : 3 * p < 2 * (3 * p / 2) + 2 := by omega
  have h1' : (2 : ℝ) * ((3 * p / 2 : ℕ) : ℝ) ≤ 3 * p := by exact_mod_cast h1
  have h2' : (3 : ℝ) * p < 2 * ((3 * p / 2 : ℕ) : ℝ) + 2 := by exact_mod_cast h2
  constructor <;> linarith

/-! ### C67 -/

/-- **C67**: at most `epochs` epochs and at least one, one loss per epoch, and the early stop exactly when `int(1.5 * patience)`
epochs have passed since the best one: not before, and a run shorter than `epochs` ended that way. -/
theorem C67_stops (net : FlowNet d Ψ Ω) (a : FitArgs) (rnd : FitRnd d) (x : List (Pt d)) (w : Option (List F)) (psi : Ψ) (opt : Ω)
    (r : FitState Ψ Ω) (h : fit net a rnd x w psi opt = .ok r) :
    r.loss.length ≤ a.epochs ∧ (1 ≤ a.epochs → 1 ≤ r.loss.length) ∧
    (0 < a.validationSplit → r.valLoss.length = r.loss.length) ∧
    (∀ j b, j + 1 < r.loss.length → BestEpoch ((monitoredLosses a r).take (j + 1)) b → j - b < ⌊(1.5 : ℝ) * a.patience⌋₊) ∧
    (r.loss.length < a.epochs → ∀ b, BestEpoch (monitoredLosses a r) b →
      ⌊(1.5 : ℝ) * a.patience⌋₊ ≤ r.loss.length - 1 - b) := by
  have hE := fit_end h
  rw [floor_patience]
  simp only [← mon_eq]
  refine ⟨hE.atMost, fun h => hE.atLeast h, fun hs => by rw [hE.val]; simp [hs], fun j b => hE.wentOn j b (Nat.zero_le _), ?_⟩
  intro hlt b hb
  cases he : r.early with
  | false => have := (hE.ranOut he).1; omega
  | true =>
    obtain ⟨b', g1, g2, -⟩ := hE.stopped he
    rw [hb.unique g1]
    exact g2

/-! ### C66 -/

/-- **C66**, as far as it is true: when the patience ran out, the flow holds the parameters it had after the best epoch (those it
started with if no epoch had a loss below infinity).  Otherwise it holds the parameters of the *last* epoch, so that the property
fails whenever the last epoch is not the best (`C66_last_not_best`).  (`models` are the parameters after each epoch.) -/
theorem C66_best_partial (net : FlowNet d Ψ Ω) (a : FitArgs) (rnd : FitRnd d) (x : List (Pt d)) (w : Option (List F)) (psi : Ψ)
    (opt : Ω) (r : FitState Ψ Ω) (h : fit net a rnd x w psi opt = .ok r) (b : ℕ) (hb : BestEpoch (monitoredLosses a r) b) :
    r.models.length = r.loss.length ∧
    (1 ≤ a.epochs → ⌊(1.5 : ℝ) * a.patience⌋₊ ≤ r.loss.length - 1 - b →
      (∃ l ∈ monitoredLosses a r, l < pinf) → r.models[b]? = some r.params) ∧
    (1 ≤ a.epochs → ⌊(1.5 : ℝ) * a.patience⌋₊ ≤ r.loss.length - 1 - b →
      (¬ ∃ l ∈ monitoredLosses a r, l < pinf) → r.params = psi) ∧
    (1 ≤ a.epochs → ¬ ⌊(1.5 : ℝ) * a.patience⌋₊ ≤ r.loss.length - 1 - b → r.models[a.epochs - 1]? = some r.params) := by
  have hE := fit_end h
  rw [floor_patience]
  simp only [← mon_eq] at hb ⊢
  have key : 1 ≤ a.epochs → 3 * a.patience / 2 ≤ r.loss.length - 1 - b → r.early = true := by
    intro h1 h2
    cases he : r.early with
    | true => rfl
    | false => have := (hE.ranOut he).2.2 b (by omega) hb; omega
  refine ⟨hE.modelsLen, ?_, ?_, ?_⟩
  · rintro h1 h2 ⟨l, hl, hlt⟩
    obtain ⟨b', g1, g2, -, g3 | g3⟩ := hE.stopped (key h1 h2)
    · rw [hb.unique g1]; exact g3.1
    · exact absurd hlt (g3.2 l hl)
  · intro h1 h2 hn
    obtain ⟨b', g1, g2, -, g3 | g3⟩ := hE.stopped (key h1 h2)
    · obtain ⟨v, gv, hv⟩ := g3.2
      exact absurd ⟨v, List.mem_of_getElem? gv, hv⟩ hn
    · exact g3.1
  · intro h1 h2
    cases he : r.early with
    | true =>
      obtain ⟨b', g1, g2, -⟩ := hE.stopped he
      rw [hb.unique g1] at h2
      exact absurd g2 h2
    | false =>
      obtain ⟨g1, g2, -⟩ := hE.ranOut he
      have hm := hE.modelsLen
      have hne : r.models ≠ [] := by intro h0; rw [h0] at hm; simp at hm; omega
      rw [g2, List.getLast?_eq_getLast hne, Option.getD_some, ← g1, ← hm, ← List.getLast?_eq_getElem?, List.getLast?_eq_getLast hne]

/-! ### C69 -/

/-- **C69**: the hidden width is a power of two, at least 32 and at least `3 * n_dim`, and no smaller power of two is. -/
theorem C69_width (n : ℕ) (hn : 0 < n) :
    (∃ k, hiddenWidth n = 2 ^ k) ∧ 32 ≤ hiddenWidth n ∧ 3 * n ≤ hiddenWidth n ∧
    ∀ k, 32 ≤ 2 ^ k → 3 * n ≤ 2 ^ k → hiddenWidth n ≤ 2 ^ k := by
  have e : nextPowerOf2 (3 * n) = 2 ^ Nat.size (3 * n - 1) := if_neg (by omega)
  have h1 : 3 * n ≤ 2 ^ Nat.size (3 * n - 1) := by
    have := Nat.lt_size_self (3 * n - 1); omega
  unfold hiddenWidth
  rw [e]
  refine ⟨?_, le_max_right _ _, le_trans h1 (le_max_left _ _), ?_⟩
  · rcases max_choice (2 ^ Nat.size (3 * n - 1)) 32 with h | h
    · exact ⟨_, h⟩
    · exact ⟨5, h⟩
  · intro k h2 h3
    refine max_le ?_ h2
    exact Nat.pow_le_pow_right (by norm_num) (Nat.size_le.mpr (by omega))

example : hiddenWidth 11 = 64 ∧ hiddenWidth 1 = 32 := by decide

/-! ### C68 and C79: data handling -/

theorem filterMap_range {α : Type} (l : List α) : (List.range l.length).filterMap (l[·]?) = l := by
  have h : (List.range l.length).map (l[·]?) = l.map some := by
    apply List.ext_getElem
    · simp
    · intro i h1 h2
      simp at h1
      simp [h1]
  have h2 : (List.range l.length).filterMap (l[·]?) = ((List.range l.length).map (l[·]?)).filterMap id := by
    rw [List.filterMap_map]; rfl
  rw [h2, h, List.filterMap_map]
  simp

theorem gather_filterMap {α : Type} (l : List α) (idx : List ℕ) (h : ∀ i ∈ idx, i < l.length) :
    gather l idx = .ok (idx.filterMap (l[·]?)) := by
  unfold gather
  induction idx with
  | nil => rfl
  | cons i idx ih =>
    rw [List.mapM_cons, ih fun j hj => h j (by simp [hj])]
    have hi := h i (by simp)
    simp [List.getElem?_eq_getElem hi, bind, Except.bind, pure, Except.pure]

/-- Shuffling gives the same rows in some order. -/
theorem fitShuffle_perm {α : Type} (shuffle : Bool) (p : List ℕ) (l : List α) (hp : shuffle = true → IsPerm p l.length) :
    ∃ out, fitShuffle shuffle p l = .ok out ∧ out.Perm l := by
  unfold fitShuffle
  cases shuffle with
  | false => exact ⟨l, rfl, List.Perm.refl _⟩
  | true =>
    have hp := hp rfl
    refine ⟨p.filterMap (l[·]?), ?_, ?_⟩
    · rw [if_pos rfl]
      exact gather_filterMap l p fun i hi => List.mem_range.mp (hp.mem_iff.mp hi)
    · have := hp.filterMap (l[·]?)
      rwa [filterMap_range] at this

theorem fitShuffle_map {α β : Type} (f : α → β) (shuffle : Bool) (p : List ℕ) (l : List α) :
    fitShuffle shuffle p (l.map f) = (fitShuffle shuffle p l).map (List.map f) := by
  unfold fitShuffle
  cases shuffle with
  | false => rfl
  | true => exact gather_map l f p

theorem zip_fst_snd {α β : Type} (l : List (α × β)) : (l.map (·.1)).zip (l.map (·.2)) = l := by
  induction l with
  | nil => rfl
  | cons a l ih => simp [ih]

theorem fitSplit_rows (s : ℝ) (rows : List (Pt d × F)) :
    fitSplit s (rows.map (·.1)) (some (rows.map (·.2))) =
      .ok (if 0 < s then rows.take (truncInt (s * rows.length)).toNat else rows,
        if 0 < s then some (rows.drop (truncInt (s * rows.length)).toNat) else none) := by
  unfold fitSplit tensorDataset
  split
  · simp only [Option.map_some, List.length_map, List.length_take, List.length_drop, if_true, ← List.map_take, ← List.map_drop,
      zip_fst_snd]
    rfl
  · simp only [List.length_map, if_true, zip_fst_snd]
    rfl

/-- **C68**, as far as it is true: with weights, every sample goes to exactly one of the two sets, together with its own
weight; the *training* set holds the fraction `validation_split`.  (The property asks for the validation set to hold that
fraction, see `C68_fraction_swapped`.) -/
theorem C68_partition_partial (a : FitArgs) (rnd : FitRnd d) (rows : List (Pt d × F)) (hn : a.noise = none)
    (hp : a.shuffle = true → IsPerm rnd.perm rows.length) :
    ∃ data, fitData a rnd (rows.map (·.1)) (some (rows.map (·.2))) = .ok data ∧
      (data.train ++ data.valid.getD []).Perm rows ∧
      (a.validationSplit ≤ 0 → data.valid = none) ∧
      (0 < a.validationSplit → a.validationSplit ≤ 1 → ∃ v, data.valid = some v ∧
        data.train.length = ⌊a.validationSplit * rows.length⌋₊ ∧
        v.length = rows.length - ⌊a.validationSplit * rows.length⌋₊) := by
  obtain ⟨out, ho, hperm⟩ := fitShuffle_perm a.shuffle rnd.perm rows hp
  have e1 : fitShuffle a.shuffle rnd.perm (rows.map (·.1)) = .ok (out.map (·.1)) := by rw [fitShuffle_map, ho]; rfl
  have e2 : shuffleWeights a.shuffle rnd.perm (some (rows.map (·.2))) = .ok (some (out.map (·.2))) := by
    unfold shuffleWeights; simp only; rw [fitShuffle_map, ho]; rfl
  have e3 : noiseScale a.noise (out.map (·.1)) = .ok (fin 0) := by rw [hn]; rfl
  refine ⟨FitData.mk (if 0 < a.validationSplit then out.take (truncInt (a.validationSplit * out.length)).toNat else out)
    (if 0 < a.validationSplit then some (out.drop (truncInt (a.validationSplit * out.length)).toNat) else none) true (fin 0),
    ?_, ?_, ?_, ?_⟩
  · unfold fitData
    rw [e1]
    simp only [bind, Except.bind, e2, e3, fitSplit_rows]
    rfl
  · simp only
    split
    · rw [Option.getD_some, List.take_append_drop]; exact hperm
    · rw [Option.getD_none, List.append_nil]; exact hperm
  · intro h; simp only; rw [if_neg (not_lt.mpr h)]
  · intro h0 h1
    simp only [if_pos h0]
    have hlen : out.length = rows.length := hperm.length_eq
    have e4 : (truncInt (a.validationSplit * out.length)).toNat = ⌊a.validationSplit * rows.length⌋₊ := by
      have : (0 : ℝ) ≤ a.validationSplit * out.length := by positivity
      unfold truncInt
      rw [if_pos this, hlen, Int.floor_toNat]
    refine ⟨_, rfl, ?_, ?_⟩
    · rw [e4, List.length_take, hlen]
      apply min_eq_left
      apply Nat.floor_le_of_le
      have : (0 : ℝ) ≤ rows.length := Nat.cast_nonneg _
      nlinarith
    · rw [e4, List.length_drop, hlen]

/-- Without weights the samples are partitioned in the same way. -/
theorem C68_unweighted_partial (a : FitArgs) (rnd : FitRnd d) (xs : List (Pt d)) (hn : a.noise = none)
    (hp : a.shuffle = true → IsPerm rnd.perm xs.length) :
    ∃ data, fitData a rnd xs none = .ok data ∧ ((data.train ++ data.valid.getD []).map (·.1)).Perm xs := by
  obtain ⟨out, ho, hperm⟩ := fitShuffle_perm a.shuffle rnd.perm xs hp
  have e3 : noiseScale a.noise out = .ok (fin 0) := by rw [hn]; rfl
  have e4 : fitSplit a.validationSplit out none = .ok
      (if 0 < a.validationSplit then (out.take (truncInt (a.validationSplit * out.length)).toNat).map fun p => (p, fin 1)
        else out.map fun p => (p, fin 1),
       if 0 < a.validationSplit then some ((out.drop (truncInt (a.validationSplit * out.length)).toNat).map fun p => (p, fin 1))
        else none) := by
    unfold fitSplit
    split <;> rfl
  refine ⟨FitData.mk (if 0 < a.validationSplit then
        (out.take (truncInt (a.validationSplit * out.length)).toNat).map fun p => (p, fin 1) else out.map fun p => (p, fin 1))
      (if 0 < a.validationSplit then some ((out.drop (truncInt (a.validationSplit * out.length)).toNat).map fun p => (p, fin 1))
        else none) false (fin 0), ?_, ?_⟩
  · unfold fitData
    rw [ho]
    simp only [bind, Except.bind, shuffleWeights, e3, e4]
    rfl
  · simp only
    split
    · simp only [Option.getD_some, List.map_append, List.map_map, Function.comp_def, List.map_id']
      rw [List.take_append_drop]; exact hperm
    · simp only [Option.getD_none, List.append_nil, List.map_map, Function.comp_def, List.map_id']
      exact hperm

/-- **C68** is false in its last part: the validation set does not hold the requested fraction, but the rest. -/
theorem C68_fraction_swapped : ∃ (a : FitArgs) (rnd : FitRnd 1) (rows : List (Pt 1 × F)) (data : FitData 1) (v : List (Pt 1 × F)),
    a.validationSplit = 0.2 ∧ rows.length = 5 ∧ fitData a rnd (rows.map (·.1)) (some (rows.map (·.2))) = .ok data ∧
    data.valid = some v ∧ v.length = 4 ∧ data.train.length = 1 := by
  let a : FitArgs := ⟨0.2, 1, 1, 1, none, none, false, none, false⟩
  let rnd : FitRnd 1 := ⟨[], fun _ _ => [], fun _ _ _ _ => fin 0⟩
  let rows : List (Pt 1 × F) := List.replicate 5 (fun _ => fin 0, fin 1)
  obtain ⟨data, h1, -, -, h4⟩ := C68_partition_partial a rnd rows rfl (fun h => by cases h)
  obtain ⟨v, hv, h5, h6⟩ := h4 (by show (0 : ℝ) < 0.2; norm_num) (by show (0.2 : ℝ) ≤ 1; norm_num)
  have e : ⌊a.validationSplit * rows.length⌋₊ = 1 := by
    have : a.validationSplit * (rows.length : ℝ) = 1 := by
      show (0.2 : ℝ) * ((List.replicate 5 _).length : ℝ) = 1
      rw [List.length_replicate]; norm_num
    rw [this, Nat.floor_one]
  refine ⟨a, rnd, rows, data, v, rfl, by simp [rows], h1, hv, ?_, ?_⟩
  · rw [h6, e]; simp [rows]
  · rw [h5, e]

theorem chunks_flatten {α : Type} (k : ℕ) (l : List α) : (chunks k l).flatten = l := by
  induction l using chunks.induct k with
  | case1 => simp [chunks]
  | case2 a l ih =>
    rw [chunks, List.flatten_cons, ih, List.take_append_drop]

theorem chunks_length {α : Type} (k : ℕ) (l : List α) : ∀ b ∈ chunks k l, b ≠ [] ∧ b.length ≤ k + 1 := by
  induction l using chunks.induct k with
  | case1 => simp [chunks]
  | case2 a l ih =>
    rw [chunks]
    intro b hb
    rcases List.mem_cons.mp hb with rfl | hb
    · simp
    · exact ih b hb

/-- **C79**: one pass over the training set uses every row exactly once, in non-empty batches of at most `batch_size` rows. -/
theorem C79_epoch_covers {α : Type} (batchSize : ℕ) (hb : 0 < batchSize) (shuffle : Bool) (visit : List ℕ) (ds : List α)
    (hv : shuffle = true → IsPerm visit ds.length) :
    ∃ bs, loader batchSize shuffle visit ds = .ok bs ∧ bs.flatten.Perm ds ∧ ∀ b ∈ bs, b ≠ [] ∧ b.length ≤ batchSize := by
  obtain ⟨out, ho, hperm⟩ := fitShuffle_perm shuffle visit ds hv
  refine ⟨chunks (batchSize - 1) out, ?_, ?_, ?_⟩
  · unfold loader
    rw [if_neg (by omega), ho]
    rfl
  · rw [chunks_flatten]; exact hperm
  · intro b h
    have := chunks_length (batchSize - 1) out b h
    exact ⟨this.1, by omega⟩

example : ∃ bs, loader 2 true [2, 0, 1] ["a", "b", "c"] = .ok bs ∧ bs.flatten.Perm ["a", "b", "c"] ∧
    ∀ b ∈ bs, b ≠ [] ∧ b.length ≤ 2 :=
  C79_epoch_covers 2 (by norm_num) true [2, 0, 1] ["a", "b", "c"] fun _ => by unfold IsPerm; decide

/-! ### C77 and C81: the loss -/

/-- **C77**: the loss of a batch does not depend on how the weights are normalised. -/
theorem C77_weight_scale (net : FlowNet d Ψ Ω) (a : FitArgs) (psi : Ψ) (batch : List ((Fin d → ℝ) × ℝ)) (c : ℝ) (hc : 0 < c)
    (hlp : ∀ q ∈ batch, ∃ r, net.logProb psi (pt q.1) = fin r) (hw : (batch.map (·.2)).sum ≠ 0) :
    batchLoss net a true psi (batch.map fun q => (pt q.1, fin (c * q.2))) =
      batchLoss net a true psi (batch.map fun q => (pt q.1, fin q.2)) := by
  have key : ∀ k : ℝ, k ≠ 0 → ∃ s : ℝ,
      sum ((batch.map fun q => (pt q.1, fin (k * q.2))).map fun q : Pt d × F => -(net.logProb psi q.1) * q.2 * fin 1000) = fin (k * s) ∧
      sum ((batch.map fun q => (pt q.1, fin (1 * q.2))).map fun q : Pt d × F => -(net.logProb psi q.1) * q.2 * fin 1000) = fin s ∧
      sum ((batch.map fun q => (pt q.1, fin (k * q.2))).map fun q : Pt d × F => q.2) = fin (k * (batch.map (·.2)).sum) := by
    intro k _
    clear hw
    induction batch with
    | nil => exact ⟨0, by simp [F.sum]; rfl, rfl, by simp [F.sum]; rfl⟩
    | cons q batch ih =>
      obtain ⟨s, h1, h2, h3⟩ := ih fun p hp => hlp p (by simp [hp])
      obtain ⟨r, hr⟩ := hlp q (by simp)
      refine ⟨-r * q.2 * 1000 + s, ?_, ?_, ?_⟩
      · simp only [List.map_cons, F.sum, List.foldr_cons] at h1 ⊢
        rw [h1, hr]
        simp only [fin_neg, fin_mul, fin_add, fin_inj]
        ring
      · simp only [List.map_cons, F.sum, List.foldr_cons] at h2 ⊢
        rw [h2, hr]
        simp only [fin_neg, fin_mul, fin_add, fin_inj]
        ring
      · simp only [List.map_cons, F.sum, List.foldr_cons, List.sum_cons] at h3 ⊢
        rw [h3]
        simp only [fin_add, fin_inj]
        ring
  obtain ⟨s, h1, h2, h3⟩ := key c hc.ne'
  obtain ⟨s', h1', h2', h3'⟩ := key 1 one_ne_zero
  simp only [one_mul] at h2 h1' h3'
  have hs : s' = s := by rw [h1'] at h2; simpa using h2
  unfold batchLoss
  simp only [if_true]
  rw [h1, h3, h1', h3', hs, fin_div _ _ (mul_ne_zero hc.ne' hw), fin_div _ _ hw, mul_div_mul_left _ _ hc.ne']

/-- **C81**: the regularised loss is the plain loss plus `|w|_1 / laplace_scale` plus `|w|_2^2 / (2 gaussian_scale^2)`. -/
theorem C81_regularised (net : FlowNet d Ψ Ω) (a : FitArgs) (weighted : Bool) (psi : Ψ) (batch : List (Pt d × F))
    (l n1 n2 : ℝ) (hl : batchLoss net { a with laplaceScale := none, gaussianScale := none } weighted psi batch = fin l)
    (h1 : net.l1 psi = fin n1) (h2 : net.l2 psi = fin n2) (s t : ℝ) (hs : s ≠ 0) (ht : t ≠ 0) :
    batchLoss net { a with laplaceScale := some (fin s), gaussianScale := none } weighted psi batch = fin (l + n1 / s) ∧
    batchLoss net { a with laplaceScale := none, gaussianScale := some (fin t) } weighted psi batch
      = fin (l + n2 / (2 * t ^ 2)) ∧
    batchLoss net { a with laplaceScale := some (fin s), gaussianScale := some (fin t) } weighted psi batch
      = fin (l + n1 / s + n2 / (2 * t ^ 2)) := by
  have ht2 : (2 : ℝ) * (t * t) ≠ 0 := by positivity
  unfold batchLoss at hl ⊢
  simp only [Option.isSome_none, Option.isSome_some, Bool.or_self, Bool.or_true, Bool.true_or, Bool.false_eq_true, if_false,
    if_true] at hl ⊢
  rw [hl]
  unfold regularizationLoss
  simp only [h1, h2, F.sq, fin_mul, fin_neg]
  rw [fin_div _ _ hs, fin_div _ _ ht2]
  simp only [fin_add, fin_sub, fin_inj]
  refine ⟨?_, ?_, ?_⟩ <;> field_simp <;> ring

/-! ### C78 -/

theorem distances_fin (xs : List (Fin d → ℝ)) (p : Fin d → ℝ) :
    distances (xs.map pt) (pt p) = xs.map fun q => fin (Real.sqrt (∑ k, (p k - q k) ^ 2)) := by
  unfold distances
  rw [List.map_map]
  apply List.map_congr_left
  intro q _
  have e : (List.ofFn fun i => sq (pt p i - pt q i)) = (List.ofFn fun i => (p i - q i) ^ 2).map fin := by
    rw [List.map_ofFn]
    congr 1
    funext i
    show sq (fin (p i) - fin (q i)) = fin ((p i - q i) ^ 2)
    rw [fin_sub, F.sq, fin_mul, fin_inj]; ring
  show F.sqrt (sum (List.ofFn fun i => sq (pt p i - pt q i))) = _
  rw [e, sum_fin, List.sum_ofFn, sqrt_fin _ (Finset.sum_nonneg fun i _ => sq_nonneg _)]

/-- **C78**, what the code computes: the mean distance of the samples to the last one (in the shuffled order). -/
theorem C78_noise_scale_partial (xs : List (Fin d → ℝ)) (last : Fin d → ℝ) (h : ∀ x ∈ xs ++ [last], ∃ y ∈ xs ++ [last], y ≠ x) :
    meanMinDist ((xs ++ [last]).map pt) =
      .ok (fin (((xs ++ [last]).map fun q => Real.sqrt (∑ k, (last k - q k) ^ 2)).sum / (xs ++ [last]).length)) := by
  unfold meanMinDist
  have e : ((xs ++ [last]).map pt).mapM (fun p =>
      if ((distances ((xs ++ [last]).map pt) p).filter fun t => decide (t > fin 0)) = [] then Except.error PyErr.valueError else .ok ())
      = .ok (((xs ++ [last]).map pt).map fun _ => ()) := by
    apply mapM_ok
    intro p hp
    obtain ⟨x, hx, rfl⟩ := List.mem_map.mp hp
    rw [if_neg]
    intro h0
    obtain ⟨y, hy, hne⟩ := h x hx
    rw [distances_fin] at h0
    have hpos : 0 < ∑ k, (x k - y k) ^ 2 := by
      obtain ⟨k, hk⟩ := Function.ne_iff.mp hne
      have : 0 < (x k - y k) ^ 2 := by
        have : x k - y k ≠ 0 := fun h => hk (by linarith)
        positivity
      exact Finset.sum_pos' (fun i _ => sq_nonneg _) ⟨k, Finset.mem_univ _, this⟩
    have : fin (Real.sqrt (∑ k, (x k - y k) ^ 2)) ∈ (((xs ++ [last]).map fun q => fin (Real.sqrt (∑ k, (x k - q k) ^ 2))).filter
        fun t => decide (t > fin 0)) := by
      rw [List.mem_filter]
      refine ⟨List.mem_map.mpr ⟨y, hy, rfl⟩, ?_⟩
      rw [decide_eq_true_eq]
      exact (fin_lt _ _).mpr (Real.sqrt_pos.mpr hpos)
    rw [h0] at this
    cases this
  rw [e]
  have hl : ((xs ++ [last]).map (pt (d := d))).getLast? = some (pt last) := by simp
  simp only [bind, Except.bind, hl]
  rw [distances_fin]
  have hm : ((xs ++ [last]).map fun q => fin (Real.sqrt (∑ k, (last k - q k) ^ 2)))
      = ((xs ++ [last]).map fun q => Real.sqrt (∑ k, (last k - q k) ^ 2)).map fin := by rw [List.map_map]; rfl
  rw [hm, mean_fin _ (by simp), List.length_map]

/-- **C78** is false: for the points 0, 1, 3 the mean distance to the nearest neighbour is 4/3, the noise scale is 5/3. -/
theorem C78_noise_scale_false : ∃ (xs : List (Fin 1 → ℝ)) (m : ℝ), NearestMean xs m ∧ m = 4 / 3 ∧
    meanMinDist (xs.map pt) = .ok (fin (5 / 3)) := by
  have hne : ∀ a b : ℝ, a ≠ b → (fun _ : Fin 1 => a) ≠ fun _ => b := fun a b h e => h (congrFun e 0)
  have hd : ∀ a b : ℝ, Real.sqrt (∑ k : Fin 1, ((fun _ : Fin 1 => a) k - (fun _ : Fin 1 => b) k) ^ 2) = |a - b| := by
    intro a b
    simp [Real.sqrt_sq_eq_abs]
  refine ⟨[fun _ => 0, fun _ => 1, fun _ => 3], 4 / 3, ⟨fun x => if x 0 = 3 then 2 else 1, ?_, ?_⟩, rfl, ?_⟩
  · norm_num
  · have h01 := hne 0 1 (by norm_num)
    have h03 := hne 0 3 (by norm_num)
    have h13 := hne 1 3 (by norm_num)
    intro x hx
    simp only [List.mem_cons, List.not_mem_nil, or_false] at hx
    rcases hx with rfl | rfl | rfl
    · refine ⟨⟨fun _ => 1, by simp, h01.symm, ?_⟩, ?_⟩
      · rw [hd]; norm_num
      · intro y hy hn
        simp only [List.mem_cons, List.not_mem_nil, or_false] at hy
        rcases hy with rfl | rfl | rfl
        · exact absurd rfl hn
        · rw [hd]; norm_num
        · rw [hd]; norm_num
    · refine ⟨⟨fun _ => 0, by simp, h01, ?_⟩, ?_⟩
      · rw [hd]; norm_num
      · intro y hy hn
        simp only [List.mem_cons, List.not_mem_nil, or_false] at hy
        rcases hy with rfl | rfl | rfl
        · rw [hd]; norm_num
        · exact absurd rfl hn
        · rw [hd]; norm_num
    · refine ⟨⟨fun _ => 1, by simp, h13, ?_⟩, ?_⟩
      · rw [hd]; norm_num
      · intro y hy hn
        simp only [List.mem_cons, List.not_mem_nil, or_false] at hy
        rcases hy with rfl | rfl | rfl
        · rw [hd]; norm_num
        · rw [hd]; norm_num
        · exact absurd rfl hn
  · have := C78_noise_scale_partial (d := 1) [fun _ => 0, fun _ => 1] (fun _ => 3) (by
      intro x hx
      by_cases h : x 0 = 0
      · exact ⟨fun _ => 1, by simp, fun e => by rw [← e] at h; norm_num at h⟩
      · exact ⟨fun _ => 0, by simp, fun e => by rw [← e] at h; exact h rfl⟩)
    refine this.trans ?_
    simp only [List.cons_append, List.nil_append, List.map_cons, List.map_nil, hd]
    norm_num

/-! ### C66 is false without early stopping -/

/-- A network that gets worse with every step. -/
noncomputable def worseNet : FlowNet 1 ℕ Unit :=
  { logProb := fun n _ => fin (-(n : ℝ)), optim := fun _ n _ => ((), n + 1), sched := fun _ _ => (), l1 := fun _ => fin 0
    l2 := fun _ => fin 0 }

noncomputable def worseArgs (p : ℕ) : FitArgs := ⟨0, 2, 1, p, none, none, false, none, false⟩

def worseRnd : FitRnd 1 := ⟨[], fun _ _ => [], fun _ _ _ _ => fin 0⟩

/-- Training with this network and two epochs: the losses are 0 and 1. -/
theorem worse_fit (p : ℕ) (hp : 0 < p) : fit worseNet (worseArgs p) worseRnd [fun _ => fin 0] none 0 () =
    .ok { params := if p = 1 then 1 else 2, opt := (), loss := [fin 0, fin 1], valLoss := [], bestEpoch := 0, bestLoss := fin 0,
          bestModel := 1, models := [1, 2], early := decide (p = 1) } := by
  have e0 : fitData (worseArgs p) worseRnd [fun _ => fin 0] none
      = .ok ⟨[(fun _ => fin 0, fin 1)], none, false, fin 0⟩ := by
    have e : ∀ x w, fitSplit (d := 1) (worseArgs p).validationSplit x w = (tensorDataset x w).map fun t => (t, none) := by
      intro x w
      unfold fitSplit
      rw [if_neg (by show ¬ (0 : ℝ) < 0; norm_num)]
      cases tensorDataset x w <;> rfl
    unfold fitData
    simp only [e]
    rfl
  have e1 : ∀ (k : ℕ) (n : ℕ), fitEpoch worseNet (worseArgs p) ⟨[(fun _ => fin 0, fin 1)], none, false, fin 0⟩ worseRnd k () n
      = .ok ((), n + 1, fin n, none) := by
    intro k n
    have c : loader (worseArgs p).batchSize (worseArgs p).shuffle (worseRnd.visit k false) [((fun _ => fin 0, fin 1) : Pt 1 × F)]
        = .ok [[(fun _ => fin 0, fin 1)]] := by
      simp [loader, worseArgs, fitShuffle, Except.map, chunks]
    have b : batchLoss worseNet (worseArgs p) false n [((fun _ => fin 0, fin 1) : Pt 1 × F)] = fin n := by
      simp [batchLoss, worseArgs, worseNet, F.sum]
    have ps : perSample (fin 0 + fin n) 1 = .ok (fin n) := by
      unfold perSample
      rw [if_neg (by norm_num), fin_add, zero_add, F.ofNat, fin_div _ _ (by norm_num)]
      simp
    have t : trainPass worseNet (worseArgs p) false (fin 0) (worseRnd.noise k false) [[((fun _ => fin 0, fin 1) : Pt 1 × F)]] 0 () n
        (fin 0) = ((), n + 1, fin 0 + fin n) := by
      unfold trainPass
      have : addNoise (worseArgs p).noise (fin 0) (worseRnd.noise k false) 0 [((fun _ => fin 0, fin 1) : Pt 1 × F)]
        = [(fun _ => fin 0, fin 1)] := rfl
      simp only [this, b]
      rfl
    unfold fitEpoch
    simp only [c, bind, Except.bind, t, List.length_singleton, ps]
    rfl
  unfold fit
  simp only [e0, bind, Except.bind]
  show fitLoop _ _ _ _ 2 0 _ = _
  unfold fitLoop
  simp only [e1, bind, Except.bind]
  have m0 : ∀ st : FitState ℕ Unit, st.bestLoss = pinf → fitMonitor 0 st () (0 + 1) (fin ((0 : ℕ) : ℝ)) none =
      ⟨1, (), st.loss ++ [fin 0], st.valLoss, 0, fin 0, 1, st.models ++ [1], st.early⟩ := by
    intro st h
    unfold fitMonitor
    simp only [Option.getD_none, h]
    rw [if_pos (by trivial)]
    simp
  rw [m0 _ rfl]
  simp only
  rw [if_neg (by show ¬ 0 - 0 ≥ 3 * p / 2; omega)]
  unfold fitLoop
  simp only [e1, bind, Except.bind]
  have m1 : fitMonitor (0 + 1) (⟨1, (), [] ++ [fin 0], [], 0, fin 0, 1, [] ++ [1], false⟩ : FitState ℕ Unit) () (1 + 1)
      (fin ((1 : ℕ) : ℝ)) none = ⟨2, (), [fin 0, fin 1], [], 0, fin 0, 1, [1, 2], false⟩ := by
    unfold fitMonitor
    simp only [Option.getD_none]
    rw [if_neg (by rw [fin_lt]; norm_num)]
    simp
  rw [m1]
  simp only
  by_cases h1 : p = 1
  · subst h1
    rw [if_pos (by show 0 + 1 - 0 ≥ 3 * 1 / 2; norm_num)]
    rfl
  · rw [if_neg (by show ¬ 0 + 1 - 0 ≥ 3 * p / 2; omega)]
    simp [fitLoop, h1]

/-- **C66** is false without early stopping: the flow keeps the parameters of the last epoch although the first was better. -/
theorem C66_last_not_best : ∃ (net : FlowNet 1 ℕ Unit) (a : FitArgs) (rnd : FitRnd 1) (x : List (Pt 1)) (r : FitState ℕ Unit),
    fit net a rnd x none 0 () = .ok r ∧ BestEpoch (monitoredLosses a r) 0 ∧ r.models[0]? ≠ some r.params :=
  ⟨worseNet, worseArgs 20, worseRnd, _, _, worse_fit 20 (by norm_num), (by
    unfold monitoredLosses
    rw [if_neg (by show ¬ (0 : ℝ) < 0; norm_num)]
    left
    refine ⟨fin 0, rfl, trivial, ?_, fun j w h => by omega⟩
    intro w hw
    rcases List.mem_cons.mp hw with rfl | hw
    · rw [fin_lt]; norm_num
    · rcases List.mem_cons.mp hw with rfl | hw
      · rw [fin_lt]; norm_num
      · cases hw), by simp⟩

/-- With patience 1 training stops after the second epoch, and the parameters of the first are restored. -/
example : ⌊(1.5 : ℝ) * (worseArgs 1).patience⌋₊ ≤ 2 - 1 - 0 ∧
    fit worseNet (worseArgs 1) worseRnd [fun _ => fin 0] none 0 () =
    .ok ⟨1, (), [fin 0, fin 1], [], 0, fin 0, 1, [1, 2], true⟩ := by
  refine ⟨?_, worse_fit 1 one_pos⟩
  rw [floor_patience]
  show 3 * 1 / 2 ≤ _
  simp

/-- Concrete cases for C77 and C81. -/
example : batchLoss worseNet (worseArgs 1) true 1 ([(fun _ => 0, 1), (fun _ => 1, 3)].map fun q => (pt q.1, fin (2 * q.2))) =
    batchLoss worseNet (worseArgs 1) true 1 ([(fun _ => 0, 1), (fun _ => 1, 3)].map fun q => (pt q.1, fin q.2)) :=
  C77_weight_scale worseNet (worseArgs 1) 1 [(fun _ => 0, 1), (fun _ => 1, 3)] 2 two_pos (fun _ _ => ⟨_, rfl⟩) (by norm_num)

example : batchLoss { worseNet with l1 := fun _ => fin 6, l2 := fun _ => fin 16 }
    { worseArgs 1 with laplaceScale := some (fin 3), gaussianScale := some (fin 2) } false 5 [(pt fun _ => 0, fin 1)] = fin 9 := by
  have := (C81_regularised { worseNet with l1 := fun _ => fin 6, l2 := fun _ => fin 16 } (worseArgs 1) false 5
    [(pt fun _ => 0, fin 1)] 5 6 16 (by simp [batchLoss, worseNet, F.sum]) rfl rfl 3 2 (by norm_num) (by norm_num)).2.2
  rw [this, fin_inj]
  norm_num

/-! ### C70 -/

/-- **C70**: through the wrapper, the forward and the inverse map both report `log |det|` of the derivative of the *inverse*
map at the image point, so the value returned with `v → theta` equals the one returned with `theta → v`. -/
theorem C70_jacobian (t : FlowTransform d) (T S : (Fin d → ℝ) → Fin d → ℝ) (hT : ∀ v, t.call (pt v) = pt (T v))
    (hS : ∀ y, t.inv (pt y) = pt (S y)) (hST : ∀ v, S (T v) = v) (v : Fin d → ℝ)
    (A B : (Fin d → ℝ) →L[ℝ] (Fin d → ℝ)) (hA : HasFDerivAt T A v) (hB : HasFDerivAt S B (T v))
    (hl : t.ladj (pt v) = fin (Real.log |A.det|)) :
    wrapperForward t (pt v) = (pt (T v), fin (Real.log |B.det|)) ∧
    wrapperInverse t (pt (T v)) = (pt v, fin (Real.log |B.det|)) := by
  have hBA : B.comp A = ContinuousLinearMap.id ℝ _ := by
    have h1 : HasFDerivAt (S ∘ T) (B.comp A) v := hB.comp v hA
    have h2 : S ∘ T = id := funext hST
    rw [h2] at h1
    exact h1.unique (hasFDerivAt_id v)
  have hdet : B.det * A.det = 1 := by
    have : (B.comp A).det = 1 := by rw [hBA]; simp [ContinuousLinearMap.det]
    rw [← this]
    simp [ContinuousLinearMap.det]
  have hlog : -Real.log |A.det| = Real.log |B.det| := by
    have hA0 : A.det ≠ 0 := right_ne_zero_of_mul_eq_one hdet
    rw [eq_inv_of_mul_eq_one_left hdet, abs_inv, Real.log_inv]
  unfold wrapperForward wrapperInverse FlowTransform.forward FlowTransform.inverse
  simp only [hT, hS, hST, hl, fin_neg, hlog, and_self]

/-- A concrete transform: scaling by 2 in one dimension. -/
example : wrapperForward (d := 1) ⟨fun x i => fin 2 * x i, fun _ => fin (Real.log 2), fun y i => y i / fin 2⟩ (pt fun _ => 3)
    = (pt (fun _ => 6), fin (Real.log (1 / 2))) := by
  have := (C70_jacobian (d := 1) ⟨fun x i => fin 2 * x i, fun _ => fin (Real.log 2), fun y i => y i / fin 2⟩
    (fun x => (2 : ℝ) • x) (fun x => (1 / 2 : ℝ) • x) (fun v => rfl)
    (fun y => by funext i; show fin (y i) / fin 2 = fin _; rw [fin_div _ _ (by norm_num)]; congr 1; simp; ring)
    (fun v => by rw [smul_smul]; norm_num) (fun _ => 3) ((2 : ℝ) • ContinuousLinearMap.id ℝ _)
    ((1 / 2 : ℝ) • ContinuousLinearMap.id ℝ _) ((hasFDerivAt_id _).const_smul (2 : ℝ)) ((hasFDerivAt_id _).const_smul (1 / 2 : ℝ))
    (by simp [ContinuousLinearMap.det])).1
  rw [this]
  refine Prod.ext ?_ ?_
  · show pt _ = pt _
    congr 1
    funext i
    simp
    norm_num
  · simp [ContinuousLinearMap.det]

end Poco
