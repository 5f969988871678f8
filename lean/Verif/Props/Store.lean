import Verif.Props.Particles
import Verif.Spec.Store

/-! # C80: the particle store as a container -/

namespace Poco
open F Spec

variable {d : ℕ} {B α : Type}

theorem update_of (p : Particles d B) (data : Cols d B Option) (k : Key d B α) :
    k.of (p.update data).past = k.of p.past ++ (k.of data).toList := by
  cases k <;> rfl

/-- **C80**: storing a dictionary that has a value for a key adds that value as the last entry of the key; every earlier
entry can still be read under its index, the new one under the index -1 and under its own index, and popping the key
removes the new entry and nothing else.  A dictionary without the key leaves the key as it was. -/
theorem C80_store (p : Particles d B) (data : Cols d B Option) (k : Key d B α) :
    (∀ a, k.of data = some a →
      getAt (k.of (p.update data).past) (-1) = .ok a ∧
      getAt (k.of (p.update data).past) (k.of p.past).length = .ok a ∧
      (∀ (i : ℕ) b, (k.of p.past)[i]? = some b → getAt (k.of (p.update data).past) i = .ok b) ∧
      popCol (k.of (p.update data).past) = .ok (k.of p.past)) ∧
    (k.of data = none → k.of (p.update data).past = k.of p.past) := by
  rw [update_of]
  generalize k.of p.past = l
  constructor
  · intro a h
    rw [h, Option.toList_some]
    refine ⟨?_, ?_, ?_, ?_⟩
    · simp [getAt, pyGet?]
    · simp [getAt, pyGet?]
    · intro i b hb
      have hi : i < l.length := by
        by_contra hn
        rw [List.getElem?_eq_none (by omega)] at hb
        cases hb
      have : (l ++ [a])[i]? = some b := by rw [List.getElem?_append_left hi, hb]
      simp [getAt, pyGet?, this]
    · simp [popCol]
  · intro h
    rw [h, Option.toList_none, List.append_nil]

/-- C80, flattened reads: the rows of all iterations in the order in which they were stored. -/
theorem C80_flat (p : Particles d B) (data : Cols d B Option) (k : Key d B (List α)) (rows : List α) (h : k.of data = some rows) :
    getFlat (k.of (p.update data).past) = .ok ((k.of p.past).flatten ++ rows) := by
  rw [update_of, h]
  simp [getFlat]

/-- C80, empty store: nothing can be read or removed. -/
theorem C80_empty (k : Key d B α) (i : ℤ) :
    getAt (k.of (Particles.init (d := d) (B := B)).past) i = .error .indexError ∧
    popCol (k.of (Particles.init (d := d) (B := B)).past) = .error .indexError := by
  have : k.of (Particles.init (d := d) (B := B)).past = [] := by cases k <;> rfl
  rw [this]
  simp [getAt, pyGet?, popCol]

/-- A dictionary with a single key. -/
example : popCol ((Key.beta : Key 1 Unit F).of ((Particles.init (d := 1) (B := Unit)).update
    ⟨none, none, none, none, none, none, none, none, none, none, none, none, none, none, some (fin 0)⟩).past) = .ok [] :=
  (((C80_store Particles.init
    ⟨none, none, none, none, none, none, none, none, none, none, none, none, none, none, some (fin 0)⟩ Key.beta).1 _ rfl).2.2.2)

end Poco
