import Verif.Model.LogLike
import Verif.Lemmas.Mcmc

/-! # C51, C52: likelihood dispatch -/

namespace Poco
open F

variable {d : ℕ} {B : Type}

theorem mapM_ok_map {α β : Type} {f : α → Except PyErr β} {g : α → β} (l : List α) (h : ∀ a ∈ l, f a = .ok (g a)) :
    l.mapM f = .ok (l.map g) := by
  induction l with
  | nil => rfl
  | cons a l ih =>
    rw [List.mapM_cons, h a (by simp), ih fun b hb => h b (by simp [hb])]
    rfl

theorem unpack_scalars (l : List F) :
    unpackResults (l.map (LikeOut.scalar (B := B))) = .ok (l, none, false) := by
  unfold unpackResults
  have hf : (l.map (LikeOut.scalar (B := B))).mapM LikeOut.toFloat = .ok l := by
    rw [mapM_ok_map (g := LikeOut.first)]
    · simp [LikeOut.first, Function.comp_def]
    · intro a ha
      obtain ⟨v, -, rfl⟩ := List.mem_map.mp ha
      rfl
  cases l with
  | nil => rfl
  | cons v l =>
    rw [hf]
    rfl

/-- The same for numbers and one-element arrays. -/
theorem unpack_numbers (rs : List (LikeOut B × F)) (h : ∀ r ∈ rs, r.1 = .scalar r.2 ∨ r.1 = .seq true r.2 []) :
    unpackResults (rs.map (·.1)) = .ok (rs.map (·.2), none, false) := by
  have hf : (rs.map (·.1)).mapM LikeOut.toFloat = .ok (rs.map (·.2)) := by
    induction rs with
    | nil => rfl
    | cons r rs ih =>
      rw [List.map_cons, List.mapM_cons, ih fun q hq => h q (by simp [hq])]
      rcases h r (by simp) with e | e <;> rw [e] <;> rfl
  have hl : (rs.map (·.1)).mapM LikeOut.len = .error .typeError ∨
      ((rs.map (·.1)).mapM LikeOut.len = .ok (rs.map fun _ => 1)) := by
    clear hf
    induction rs with
    | nil => exact Or.inr rfl
    | cons r rs ih =>
      rw [List.map_cons, List.mapM_cons]
      rcases h r (by simp) with e | e
      · left; rw [e]; rfl
      · rcases ih fun q hq => h q (by simp [hq]) with g | g
        · left; rw [g, e]; rfl
        · right; rw [g, e]; rfl
  unfold unpackResults
  rcases hl with hl | hl
  · rw [hl, hf]; rfl
  · rw [hl, hf]
    have : (((rs.map (·.1)).zip (rs.map fun _ => 1)).filter fun q => decide (q.2 > 1)) = [] := by
      rw [List.filter_eq_nil_iff]
      intro q hq
      obtain ⟨r, -, hr⟩ := List.mem_map.mp (List.of_mem_zip hq).2
      simp [← hr]
    simp only [this]
    rfl

theorem unpack_blobs (rs : List (F × List B)) (arr : Bool) (hne : rs ≠ []) (h : ∀ r ∈ rs, r.2 ≠ []) :
    unpackResults (rs.map fun r => LikeOut.seq arr r.1 r.2) = .ok (rs.map (·.1), some (rs.map (·.2)), true) := by
  unfold unpackResults
  have hl : (rs.map fun r => LikeOut.seq arr r.1 r.2).mapM LikeOut.len = .ok (rs.map fun r => r.2.length + 1) := by
    rw [mapM_ok_map (g := fun o => o.tail.length + 1)]
    · simp [LikeOut.tail, Function.comp_def]
    · intro a ha
      obtain ⟨v, -, rfl⟩ := List.mem_map.mp ha
      rfl
  rw [hl]
  simp only
  have hz : (((rs.map fun r => LikeOut.seq arr r.1 r.2).zip (rs.map fun r => r.2.length + 1)).filter
      fun q => decide (q.2 > 1)).map (fun q => q.1.tail) = rs.map (·.2) := by
    clear hl hne
    induction rs with
    | nil => rfl
    | cons r rs ih =>
      simp only [List.map_cons, List.zip_cons_cons]
      have : decide (r.2.length + 1 > 1) = true := by
        have := h r (by simp)
        simpa using List.length_pos_iff.mpr this
      rw [List.filter_cons_of_pos (by simpa using this), List.map_cons, ih fun q hq => h q (by simp [hq])]
      rfl
  rw [hz, if_neg (by simpa using hne), List.map_map]
  rfl

/-- **C51**, pools: a pool whose `map` is order preserving (returns what the built-in `map` would, including the
exception of the first failing point) gives exactly the serial result: log-likelihoods, blobs, flags and errors. -/
theorem C51_pool (e : LikeEnv d B)
    (distribute : (Pt d → Except PyErr (LikeOut B)) → List (Pt d) → Except PyErr (List (LikeOut B)))
    (hd : ∀ f xs, distribute f xs = xs.mapM f) (x : List (Pt d)) :
    logLike { e with pool := some distribute } x = logLike { e with pool := none } x := by
  simp [logLike, hd]

/-- **C51**, vectorisation: a vectorised likelihood that agrees row by row with a point likelihood returning numbers (or
one-element arrays) gives the same arrays as serial evaluation (and as any order-preserving pool, by `C51_pool`). -/
theorem C51_vectorize (e : LikeEnv d B) (f : Pt d → F) (x : List (Pt d))
    (hs : ∀ p ∈ x, e.single p = .ok (.scalar (f p)) ∨ e.single p = .ok (.seq true (f p) []))
    (hv : e.vector x = .ok (x.map f)) :
    logLike { e with vectorize := true } x = .ok (x.map f, none, false) ∧
    logLike { e with vectorize := false, pool := none } x = .ok (x.map f, none, false) := by
  constructor
  · simp [logLike, hv, Except.map]
  · simp only [logLike, Bool.false_eq_true, if_false]
    have hg : ∀ p ∈ x, ∃ o, e.single p = .ok o ∧ (o = .scalar (f p) ∨ o = .seq true (f p) []) := by
      intro p hp
      rcases hs p hp with g | g
      · exact ⟨_, g, Or.inl rfl⟩
      · exact ⟨_, g, Or.inr rfl⟩
    clear hs hv
    have : ∃ os : List (LikeOut B × F), x.mapM e.single = .ok (os.map (·.1)) ∧ os.map (·.2) = x.map f ∧
        ∀ r ∈ os, r.1 = .scalar r.2 ∨ r.1 = .seq true r.2 [] := by
      induction x with
      | nil => exact ⟨[], rfl, rfl, by simp⟩
      | cons p x ih =>
        obtain ⟨os, h1, h2, h3⟩ := ih fun q hq => hg q (by simp [hq])
        obtain ⟨o, g1, g2⟩ := hg p (by simp)
        refine ⟨(o, f p) :: os, ?_, by simp [h2], ?_⟩
        · rw [List.mapM_cons, g1, h1]; rfl
        · intro r hr
          rcases List.mem_cons.mp hr with rfl | hr
          · exact g2
          · exact h3 r hr
    obtain ⟨os, h1, h2, h3⟩ := this
    rw [h1, ← h2]
    exact unpack_numbers os h3

/-- The example likelihood Σ x², pointwise and vectorised. -/
noncomputable def exampleLike : LikeEnv 2 Unit where
  single := fun p => .ok (.scalar (F.sq (p 0) + F.sq (p 1)))
  vector := fun xs => .ok (xs.map fun p : Pt 2 => F.sq (p 0) + F.sq (p 1))
  vectorize := false
  pool := none

/-- The hypotheses of C51 hold for the likelihood Σ x², with the built-in `map` as the pool. -/
example (x : List (Pt 2)) :
    logLike { exampleLike with vectorize := true } x
      = logLike { exampleLike with pool := some fun f xs => xs.mapM f } x := by
  have h := C51_vectorize exampleLike (fun p => F.sq (p 0) + F.sq (p 1)) x (fun _ _ => Or.inl rfl) rfl
  have h2 := C51_pool exampleLike (fun f xs => xs.mapM f) (fun _ _ => rfl) x
  exact h.1.trans (h.2.symm.trans h2.symm)

/-- **C83**: the extra arguments reach the user's likelihood unchanged and at every point: with `likelihood_args = a` and
`likelihood_kwargs = k`, a batch evaluates to what the arguments make of it: `f(x, *a, **k)` for every row, serially or
through an order-preserving pool, and one call `f(xs, *a, **k)` when vectorised; leaving an argument out is the same as
passing nothing. -/
theorem C83_extra_args {A K : Type} (u : UserLike d B A K) (args : Option (List A)) (kwargs : Option (List K))
    (a : List A) (k : List K) (ha : args = some a ∨ args = none ∧ a = []) (hk : kwargs = some k ∨ kwargs = none ∧ k = [])
    (f : Pt d → F) (x : List (Pt d)) :
    ((∀ p ∈ x, u.row p a k = .ok (.scalar (f p)) ∨ u.row p a k = .ok (.seq true (f p) [])) →
      logLike (LikeEnv.make u args kwargs false none) x = .ok (x.map f, none, false) ∧
      ∀ distribute : (Pt d → Except PyErr (LikeOut B)) → List (Pt d) → Except PyErr (List (LikeOut B)),
        (∀ g xs, distribute g xs = xs.mapM g) →
        logLike (LikeEnv.make u args kwargs false (some distribute)) x = .ok (x.map f, none, false)) ∧
    ∀ pool, u.array x a k = .ok (x.map f) → logLike (LikeEnv.make u args kwargs true pool) x = .ok (x.map f, none, false) := by
  have hA : args.getD [] = a := by rcases ha with rfl | ⟨rfl, rfl⟩ <;> rfl
  have hK : kwargs.getD [] = k := by rcases hk with rfl | ⟨rfl, rfl⟩ <;> rfl
  refine ⟨fun h => ?_, fun pool h => ?_⟩
  · have h0 := (C51_vectorize { LikeEnv.make u args kwargs false none with vector := fun x => .ok (x.map f) } f x
      (by simpa only [LikeEnv.make, functionWrapper, hA, hK] using h) rfl).2
    refine ⟨h0, fun distribute hd => ?_⟩
    exact (C51_pool (LikeEnv.make u args kwargs false none) distribute hd x).trans h0
  · simp [logLike, LikeEnv.make, functionWrapper, hA, hK, h, Except.map]

/-- A likelihood `-(x - a)² · k` with one positional and one keyword argument. -/
example (x : List (Pt 1)) : logLike (LikeEnv.make (B := Unit)
      { row := fun p a k => match a, k with
          | [c], [("scale", s)] => .ok (.scalar (-(F.sq (p 0 - c)) * s))
          | _, _ => .error .typeError
        array := fun _ _ _ => .error .typeError } (some [fin 3]) (some [("scale", fin 2)]) false none) x
    = .ok (x.map fun p => -(F.sq (p 0 - fin 3)) * fin 2, none, false) :=
  ((C83_extra_args _ _ _ [fin 3] [("scale", fin 2)] (Or.inl rfl) (Or.inl rfl) _ x).1 fun _ _ => Or.inl rfl).1

/-- **C52**, partial: if the likelihood returns at least one blob at every point of a non-empty batch, row `i` of the
blobs is the blob of point `i` and entry `i` of the log-likelihoods its value.  Missing: batches with mixed return
shapes (false, `C52_mixed_misaligned`). -/
theorem C52_blobs_aligned_partial (e : LikeEnv d B) (he : e.vectorize = false) (hp : e.pool = none) (f : Pt d → F)
    (b : Pt d → List B) (arr : Bool) (x : List (Pt d)) (hne : x ≠ [])
    (hs : ∀ p ∈ x, e.single p = .ok (.seq arr (f p) (b p)) ∧ b p ≠ []) :
    logLike e x = .ok (x.map f, some (x.map b), true) := by
  simp only [logLike, he, hp, Bool.false_eq_true, if_false]
  rw [mapM_ok_map (g := fun p => .seq arr (f p) (b p)) x fun p hp => (hs p hp).1]
  have := unpack_blobs (x.map fun p => (f p, b p)) arr (by simpa using hne) (by
    intro r hr
    obtain ⟨p, hp, rfl⟩ := List.mem_map.mp hr
    exact (hs p hp).2)
  simp only [List.map_map] at this
  exact this

/-- A likelihood with two blobs per point meets the hypotheses. -/
example (p q : Pt 1) : logLike ⟨fun p => .ok (.seq false (p 0) [p 0, fin 1]), fun _ => .ok [], false, none⟩ [p, q]
    = .ok ([p 0, q 0], some [[p 0, fin 1], [q 0, fin 1]], true) :=
  C52_blobs_aligned_partial _ rfl rfl (fun p => p 0) (fun p => [p 0, fin 1]) false [p, q] (by simp) (by simp)

/-- **C52** is false in general: results without blobs are skipped, so with a likelihood returning `(logl,)` at the first
point and `(logl, b)` at the second, the only blob row sits in row 0, although it belongs to point 1. -/
theorem C52_mixed_misaligned (e : LikeEnv d B) (he : e.vectorize = false) (hp : e.pool = none) (p q : Pt d) (v w : F)
    (b : B) (h1 : e.single p = .ok (.seq false v [])) (h2 : e.single q = .ok (.seq false w [b])) :
    logLike e [p, q] = .ok ([v, w], some [[b]], true) := by
  simp only [logLike, he, hp, Bool.false_eq_true, if_false, List.mapM_cons, List.mapM_nil, h1, h2]
  rfl

end Poco
