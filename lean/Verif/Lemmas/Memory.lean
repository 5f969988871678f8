import Verif.Spec.Memory
import Verif.Lemmas.Mcmc
import Mathlib.Tactic.Linarith

/-! Reading, writing and allocating; computations that agree. -/

namespace Poco
open F

variable {d : ℕ} {B Φ : Type}

/-! ### computations that agree -/

/-- Both succeed with related results, or both raise the same exception. -/
def Sim {α β : Type*} (R : α → β → Prop) : Except PyErr α → Except PyErr β → Prop
  | .ok a, .ok b => R a b
  | .error x, .error y => x = y
  | _, _ => False

theorem Sim.bind {α β γ δ : Type} {R : α → β → Prop} {S : γ → δ → Prop} {p : Except PyErr α} {q : Except PyErr β}
    {f : α → Except PyErr γ} {g : β → Except PyErr δ} (h : Sim R p q) (hf : ∀ a b, R a b → Sim S (f a) (g b)) :
    Sim S (p >>= f) (q >>= g) := by
  cases p with
  | error x =>
    cases q with
    | error y => exact h
    | ok b => exact h.elim
  | ok a =>
    cases q with
    | error y => exact h.elim
    | ok b => exact hf a b h

theorem Sim.same {α : Type} (p : Except PyErr α) : Sim Eq p p := by cases p <;> rfl

theorem Sim.ret {α β : Type} {R : α → β → Prop} {a : α} {b : β} (h : R a b) : Sim R (pure a) (pure b) := h

theorem Sim.mono {α β : Type} {R S : α → β → Prop} {p : Except PyErr α} {q : Except PyErr β} (h : Sim R p q)
    (hRS : ∀ a b, R a b → S a b) : Sim S p q := by
  cases p <;> cases q <;> first | exact h | exact hRS _ _ h

theorem Sim.ok_left {α β : Type} {R : α → β → Prop} {p : Except PyErr α} {q : Except PyErr β} {a : α} (h : Sim R p q)
    (hp : p = .ok a) : ∃ b, q = .ok b ∧ R a b := by
  subst hp
  cases q with
  | error y => exact h.elim
  | ok b => exact ⟨b, rfl, h⟩

/-! ### memory -/

theorem writeSlice_lengthR {α : Type} (l : List α) (s : ℕ) (xs : List α) (h : s + xs.length ≤ l.length) :
    (writeSlice l s xs).length = l.length := by
  unfold writeSlice
  simp only [List.length_append, List.length_take, List.length_drop]
  omega

theorem writeSlice_selfR {α : Type} (l : List α) (s n : ℕ) : writeSlice l s ((l.drop s).take n) = l := by
  unfold writeSlice
  rw [List.length_take, List.length_drop]
  rcases Nat.le_total (s + n) l.length with h | h
  · rw [min_eq_left (by omega), ← List.drop_drop, List.append_assoc, List.take_append_drop, List.take_append_drop]
  · have h1 : (l.drop s).take n = l.drop s := List.take_of_length_le (by rw [List.length_drop]; omega)
    rw [min_eq_right (by omega), h1, List.take_append_drop, List.drop_eq_nil_of_le (by omega), List.append_nil]

theorem read_writeSlice {α : Type} (l : List α) (s : ℕ) (xs : List α) (h : s ≤ l.length) :
    ((writeSlice l s xs).drop s).take xs.length = xs := by
  unfold writeSlice
  have h1 : (l.take s).length = s := by simp; omega
  rw [List.append_assoc, List.drop_append_of_le_length (by omega), List.drop_of_length_le (by omega), List.nil_append,
    List.take_append_of_le_length le_rfl, List.take_length]

theorem read_writeSlice_before {α : Type} (l : List α) (s : ℕ) (xs : List α) (s' n' : ℕ) (h : s' + n' ≤ s) (hs : s ≤ l.length) :
    ((writeSlice l s xs).drop s').take n' = (l.drop s').take n' := by
  unfold writeSlice
  have h1 : (l.take s).length = s := by simp; omega
  rw [List.append_assoc, List.drop_append_of_le_length (by omega), List.take_append_of_le_length (by simp; omega),
    List.drop_take, List.take_take, min_eq_left (by omega)]

/-- `h'` agrees with `h` on all arrays of `h`, except possibly the user's array `b` of numbers. -/
def Ext (b : Option ℕ) (h h' : Heap d B) : Prop :=
  h.next ≤ h'.next ∧ ∀ k a, a < h.next → (k = .nums → b ≠ some a) → h'.mem k a = h.mem k a

theorem Ext.refl (b : Option ℕ) (h : Heap d B) : Ext b h h := ⟨le_rfl, fun _ _ _ _ => rfl⟩

theorem Ext.trans {b : Option ℕ} {h h' h'' : Heap d B} (h1 : Ext b h h') (h2 : Ext b h' h'') : Ext b h h'' :=
  ⟨h1.1.trans h2.1, fun k a ha hb => (h2.2 k a (lt_of_lt_of_le ha h1.1) hb).trans (h1.2 k a ha hb)⟩

theorem Ext.read {b : Option ℕ} {h h' : Heap d B} (he : Ext b h h') {k : Kind} {v : View} (hv : Live b h k v) :
    h'.read k v = h.read k v := by
  unfold Heap.read
  rw [he.2 k v.base hv.1 hv.2]

theorem Ext.live {b : Option ℕ} {h h' : Heap d B} (he : Ext b h h') {k : Kind} {v : View} (hv : Live b h k v) :
    Live b h' k v := ⟨lt_of_lt_of_le hv.1 he.1, hv.2⟩

theorem Ext.hasBuffer {b : Option ℕ} {h h' : Heap d B} (he : Ext b h h') (hb : HasBuffer b h) : HasBuffer b h' :=
  fun a ha => lt_of_lt_of_le (hb a ha) he.1

theorem new_mem (h : Heap d B) (k : Kind) (xs : List (Elem d B k)) (k' : Kind) (a : ℕ) (ha : a ≠ h.next) :
    (h.new k xs).1.mem k' a = h.mem k' a := by
  unfold Heap.new
  by_cases hk : k' = k
  · subst hk
    simp [Function.update_self, Function.update_of_ne ha]
  · simp [Function.update_of_ne hk]

theorem Ext.new (b : Option ℕ) (h : Heap d B) (k : Kind) (xs : List (Elem d B k)) : Ext b h (h.new k xs).1 :=
  ⟨Nat.le_succ _, fun k' a ha _ => new_mem h k xs k' a ha.ne⟩

theorem read_new (h : Heap d B) (k : Kind) (xs : List (Elem d B k)) : (h.new k xs).1.read k (h.new k xs).2 = xs := by
  unfold Heap.read Heap.new
  simp

theorem live_new {b : Option ℕ} {h : Heap d B} (hb : HasBuffer b h) (k : Kind) (xs : List (Elem d B k)) :
    Live b (h.new k xs).1 k (h.new k xs).2 :=
  ⟨Nat.lt_succ_self _, fun _ hh => absurd (hb _ hh) (lt_irrefl _)⟩

theorem write_mem (h : Heap d B) (k : Kind) (v : View) (xs : List (Elem d B k)) (k' : Kind) (a : ℕ)
    (hne : k' = k → a ≠ v.base) : (h.write k v xs).mem k' a = h.mem k' a := by
  unfold Heap.write
  by_cases hk : k' = k
  · subst hk
    simp [Function.update_self, Function.update_of_ne (hne rfl)]
  · simp [Function.update_of_ne hk]

theorem write_mem_self (h : Heap d B) (k : Kind) (v : View) (xs : List (Elem d B k)) :
    (h.write k v xs).mem k v.base = writeSlice (h.mem k v.base) v.start xs := by
  unfold Heap.write
  simp

theorem Ext.write {b : Option ℕ} {h h' : Heap d B} (he : Ext b h h') {k : Kind} {v : View} (hv : h.next ≤ v.base)
    (xs : List (Elem d B k)) : Ext b h (h'.write k v xs) :=
  ⟨he.1, fun k' a ha hb => (write_mem h' k v xs k' a fun _ => by omega).trans (he.2 k' a ha hb)⟩

theorem Ext.writeBuffer {b : Option ℕ} {h h' : Heap d B} (he : Ext b h h') {a : ℕ} (ha : b = some a) (s n : ℕ) (xs : List F) :
    Ext b h (h'.write .nums ⟨a, s, n⟩ xs) :=
  ⟨he.1, fun k' a' ha' hb => (write_mem h' .nums ⟨a, s, n⟩ xs k' a' fun hk hh => hb hk (by rw [ha, hh])).trans
    (he.2 k' a' ha' hb)⟩

theorem read_write_other (h : Heap d B) (k : Kind) (v : View) (xs : List (Elem d B k)) (k' : Kind) (v' : View)
    (hne : k' = k → v'.base ≠ v.base) : (h.write k v xs).read k' v' = h.read k' v' := by
  unfold Heap.read
  rw [write_mem h k v xs k' _ hne]

theorem read_write_self (h : Heap d B) (k : Kind) (v : View) (xs : List (Elem d B k)) (hs : v.start ≤ (h.mem k v.base).length)
    (hl : xs.length = v.len) : (h.write k v xs).read k v = xs := by
  unfold Heap.read
  rw [write_mem_self, ← hl]
  exact read_writeSlice _ _ _ hs

theorem write_read (h : Heap d B) (k : Kind) (v : View) : h.write k v (h.read k v) = h := by
  unfold Heap.write Heap.read
  cases h
  simp only [Heap.mk.injEq, and_true]
  rw [writeSlice_selfR]
  simp

/-- Any result of the likelihood, whether in a new array or in the user's, shows the values. -/
theorem returned_ext {b : Option ℕ} {h0 h : Heap d B} (he : Ext b h0 h) (m : Manners d) (vec : Bool)
    (hb : b = if vec then m.buffer else none) (l : List F) : Ext b h0 (returned m vec h l).1 := by
  unfold returned
  split
  · rename_i hv
    rw [if_pos hv] at hb
    split
    · rename_i a ha
      exact he.writeBuffer (hb.trans ha) 0 l.length l
    · exact he.trans (Ext.new b h .nums l)
  · exact he.trans (Ext.new b h .nums l)

theorem returned_read (m : Manners d) (vec : Bool) (h : Heap d B) (l : List F) :
    (returned m vec h l).1.read .nums (returned m vec h l).2 = l := by
  unfold returned
  split
  · split
    · exact read_write_self h .nums _ l (Nat.zero_le _) rfl
    · exact read_new h .nums l
  · exact read_new h .nums l

/-! ### the kernels -/

theorem evaluateR_sim (e : McmcEnv d (List B)) (after : List (Pt d) → List (Pt d)) (b : Option ℕ) (h : Heap d B) (xp : View)
    (cands : List (Walker d (List B))) (hb : HasBuffer b h) (hx : Live b h .pts xp) (hr : h.read .pts xp = cands.map (·.x)) :
    Sim (fun p q => p.2 = q ∧ Ext b h p.1) (evaluateR e after b h xp cands) (evaluate e cands) := by
  have hb' : b = if b.isSome then b else none := by cases b <;> rfl
  have e1 := Ext.new b h .pts (maskSelect (cands.map finiteMask) (h.read .pts xp))
  have r1 := read_new h .pts (maskSelect (cands.map finiteMask) (h.read .pts xp))
  unfold evaluateR evaluate
  simp only [r1]
  rw [hr] at e1 r1 ⊢
  refine Sim.bind (Sim.same _) ?_
  rintro logp _ rfl
  have r2 : (h.new .pts (maskSelect (cands.map finiteMask) (cands.map (·.x)))).1.read .pts xp = cands.map (·.x) :=
    (e1.read hx).trans hr
  simp only [r2]
  generalize (h.new .pts (maskSelect (cands.map finiteMask) (cands.map (·.x)))).1 = h1 at e1 r1 r2 ⊢
  generalize List.zipWith (fun m lp => m && F.isfinite lp) (cands.map finiteMask) logp = mask
  have e2 := Ext.new b h1 .pts (maskSelect mask (cands.map (·.x)))
  have r3 := read_new h1 .pts (maskSelect mask (cands.map (·.x)))
  have n3 : h1.next ≤ (h1.new .pts (maskSelect mask (cands.map (·.x)))).2.base := le_rfl
  simp only [r3]
  generalize h1.new .pts (maskSelect mask (cands.map (·.x))) = q2 at e2 r3 n3 ⊢
  refine Sim.bind (Sim.same _) ?_
  rintro ⟨ll, bl⟩ _ rfl
  have e3 : Ext b h1 (q2.1.write .pts q2.2 (after (maskSelect mask (cands.map (·.x))))) := e2.write n3 _
  have e4 := returned_ext e3 ⟨id, id, b⟩ b.isSome hb' ll
  have r4 := returned_read ⟨id, id, b⟩ b.isSome (q2.1.write .pts q2.2 (after (maskSelect mask (cands.map (·.x))))) ll
  simp only [r4]
  refine Sim.bind (Sim.same _) ?_
  rintro logl _ rfl
  refine Sim.bind (Sim.same _) ?_
  rintro blobs _ rfl
  refine Sim.ret ⟨?_, e1.trans e4⟩
  have r5 : (returned ⟨id, id, b⟩ b.isSome (q2.1.write .pts q2.2 (after (maskSelect mask (cands.map (·.x))))) ll).1.read .pts xp
      = cands.map (·.x) := (e4.read (e1.live hx)).trans r2
  have hseen : List.zipWith (fun (c : Walker d (List B)) x => { c with x := x }) cands (cands.map (·.x)) = cands := by
    rw [List.zipWith_map_right]
    induction cands with
    | nil => rfl
    | cons c cs ih => simp
  simp only
  rw [r5, hseen]

theorem mcmcStep_eq (e : McmcEnv d B) (fuel : ℕ) (rnd : ℕ → Draw d) (i : ℕ) (st : McmcState d B) :
    mcmcStep e fuel rnd i st = (do
      let cands ← (st.walkers.mapIdx fun k w => propose e st.sigma st.mu w (rnd k)).mapM (candidate e fuel)
      let q ← evaluate e cands
      return acceptStep e rnd i st q.1 q.2.1 q.2.2) := by
  unfold mcmcStep acceptStep
  congr 1
  funext cands
  congr 1
  funext q
  split
  simp only []
  split <;> rfl

/-- The reference shows the whole of an array that is newer than `h0`. -/
def Whole (h0 h : Heap d B) (k : Kind) (w : View) : Prop :=
  h0.next ≤ w.base ∧ w.base < h.next ∧ w.start = 0 ∧ (h.mem k w.base).length = w.len

theorem mcmcStepR_sim (e : McmcEnv d (List B)) (after : List (Pt d) → List (Pt d)) (b : Option ℕ) (fuel : ℕ)
    (rnd : ℕ → Draw d) (i : ℕ) (w : View) (h0 h : Heap d B) (st : McmcState d (List B)) (hb : HasBuffer b h0)
    (he : Ext b h0 h) (hw : Whole h0 h .walkers w) :
    Sim (fun p q => p.2 = q ∧ p.1.read .walkers w = q.walkers ∧ Ext b h0 p.1 ∧ Whole h0 p.1 .walkers w)
      (mcmcStepR e after b fuel rnd i w h st) (mcmcStep e fuel rnd i { st with walkers := h.read .walkers w }) := by
  obtain ⟨w1, w2, w3, w4⟩ := hw
  rw [mcmcStep_eq]
  unfold mcmcStepR
  simp only
  have hlen : (h.read .walkers w).length = w.len := by
    unfold Heap.read
    rw [w3]
    simp [w4]
  generalize hm : ((h.read .walkers w).mapIdx fun k w => propose e st.sigma st.mu w (rnd k)).mapM (candidate e fuel) = mm
  cases mm with
  | error x => exact rfl
  | ok cands =>
    have hcl : cands.length = w.len := by
      have := (mapM_eq_ok hm).1
      rw [List.length_mapIdx, hlen] at this
      exact this
    show Sim _ (Bind.bind (evaluateR _ _ _ _ _ _) _) _
    have e1 := Ext.new b h .pts (cands.map (·.x))
    have hb1 : HasBuffer b h := he.hasBuffer hb
    have l1 := live_new hb1 .pts (cands.map (·.x))
    have hs := evaluateR_sim e after b (h.new .pts (cands.map (·.x))).1 (h.new .pts (cands.map (·.x))).2 cands
      (e1.hasBuffer hb1) l1 (read_new h .pts _)
    generalize hE : evaluateR e after b (h.new .pts (cands.map (·.x))).1 (h.new .pts (cands.map (·.x))).2 cands = E at hs ⊢
    generalize hV : evaluate e cands = V at hs
    cases E with
    | error x =>
      cases V with
      | ok q => exact hs.elim
      | error y =>
        show Sim _ (Except.error x) (Bind.bind (evaluate e cands) _)
        rw [hV]
        exact hs
    | ok p =>
      cases V with
      | error y => exact hs.elim
      | ok q =>
        obtain ⟨hpq, ep⟩ := hs
        show Sim _ (Except.ok _) (Bind.bind (evaluate e cands) _)
        rw [hV]
        subst hpq
        have hwn : (h.new .pts (cands.map (·.x))).1.mem .walkers w.base = h.mem .walkers w.base :=
          new_mem h .pts _ .walkers _ w2.ne
        have hwp : p.1.mem .walkers w.base = h.mem .walkers w.base :=
          (ep.2 .walkers w.base (lt_of_lt_of_le w2 e1.1) (fun hh => by cases hh)).trans hwn
        have hpl : p.2.1.length = cands.length := (evaluate_ok e cands p.2.1 p.2.2.1 p.2.2.2 hV).1
        have hal : (acceptStep e rnd i { st with walkers := h.read .walkers w } p.2.1 p.2.2.1 p.2.2.2).walkers.length
            = w.len := by
          unfold acceptStep
          simp only
          split <;> simp [hpl, hcl, hlen]
        have hr := read_write_self p.1 .walkers w
          (acceptStep e rnd i { st with walkers := h.read .walkers w } p.2.1 p.2.2.1 p.2.2.2).walkers
          (by rw [w3]; exact Nat.zero_le _) hal
        refine ⟨rfl, hr, ((he.trans e1).trans ep).write w1 _, w1, lt_of_lt_of_le w2 (e1.1.trans ep.1), w3, ?_⟩
        rw [write_mem_self, hwp, writeSlice_lengthR _ _ _ (by rw [w3, hal, w4]; omega), w4]

theorem mcmcLoopR_sim (e : McmcEnv d (List B)) (after : List (Pt d) → List (Pt d)) (b : Option ℕ) (fuel : ℕ)
    (rnd : ℕ → ℕ → Draw d) (w : View) (h0 : Heap d B) (hb : HasBuffer b h0) :
    ∀ (n i : ℕ) (h : Heap d B) (st : McmcState d (List B)), e.nMax - i = n → Ext b h0 h → Whole h0 h .walkers w →
      h.read .walkers w = st.walkers →
      Sim (fun p q => p.2 = q ∧ p.1.read .walkers w = q.1.walkers ∧ Ext b h0 p.1)
        (mcmcLoopR e after b fuel rnd i w h st) (mcmcLoop e fuel rnd i st) := by
  intro n
  induction n using Nat.strong_induction_on with
  | _ n ih =>
    intro i h st hn he hw hr
    have hs := mcmcStepR_sim e after b fuel (rnd (i + 1)) (i + 1) w h0 h st hb he hw
    rw [hr] at hs
    unfold mcmcLoopR mcmcLoop
    have hst : ({ st with walkers := st.walkers } : McmcState d (List B)) = st := rfl
    rw [hst] at hs
    generalize mcmcStepR e after b fuel (rnd (i + 1)) (i + 1) w h st = E at hs ⊢
    generalize mcmcStep e fuel (rnd (i + 1)) (i + 1) st = V at hs ⊢
    cases E with
    | error x => cases V with
      | error y => exact hs
      | ok q => exact hs.elim
    | ok p => cases V with
      | error y => exact hs.elim
      | ok q =>
        obtain ⟨p1, p2⟩ := p
        obtain ⟨a1, a2, a3, a4⟩ := hs
        simp only at a1 a2 a3 a4
        subst a1
        simp only
        split
        · exact ⟨rfl, a2, a3⟩
        · split
          · exact ⟨rfl, a2, a3⟩
          · exact ih (e.nMax - (i + 1)) (by omega) (i + 1) p1 p2 rfl a3 a4 a2

/-- A whole kernel call: whatever the likelihood does to its argument or returns from a reused array, the result is that
of the call on values, and no array that existed before the call is changed (except the user's own). -/
theorem mcmcR_sim (e : McmcEnv d (List B)) (after : List (Pt d) → List (Pt d)) (b : Option ℕ) (fuel : ℕ)
    (rnd : ℕ → ℕ → Draw d) (w0 : View) (h : Heap d B) (hb : HasBuffer b h) :
    Sim (fun p q => p.2 = q ∧ Ext b h p.1) (mcmcR e after b fuel rnd w0 h) (mcmc e fuel rnd (h.read .walkers w0)) := by
  have e1 := Ext.new b h .walkers (mcmcInit e (h.read .walkers w0)).walkers
  have hs := mcmcLoopR_sim e after b fuel rnd (h.new .walkers (mcmcInit e (h.read .walkers w0)).walkers).2 h hb _ 0
    (h.new .walkers (mcmcInit e (h.read .walkers w0)).walkers).1 (mcmcInit e (h.read .walkers w0)) rfl e1
    ⟨le_rfl, Nat.lt_succ_self _, rfl, by simp [Heap.new]⟩ (read_new h .walkers _)
  unfold mcmcR mcmc
  simp only
  generalize mcmcLoopR e after b fuel rnd 0 (h.new .walkers (mcmcInit e (h.read .walkers w0)).walkers).2
    (h.new .walkers (mcmcInit e (h.read .walkers w0)).walkers).1 (mcmcInit e (h.read .walkers w0)) = E at hs ⊢
  generalize mcmcLoop e fuel rnd 0 (mcmcInit e (h.read .walkers w0)) = V at hs ⊢
  cases E with
  | error x => cases V with
    | error y => exact hs
    | ok q => exact hs.elim
  | ok p => cases V with
    | error y => exact hs.elim
    | ok q =>
      obtain ⟨p1, p2, p3⟩ := p
      obtain ⟨a1, a2, a3⟩ := hs
      simp only at a1 a2 a3
      subst a1
      exact ⟨by simp only [a2], a3⟩

end Poco
