import Verif.Wrap.Pace

/-!
# What automatic collections cost over a session

Bookkeeping over a run of public calls: how many nodes the calls added and how many nodes were in use when automatic
collections started (`maybe_gc`, /repo/bss/src/bdd.rs:30-47, /repo/bss/src/zdd.rs:22-34, /repo/mss/src/mdd.rs:27-44).
-/

set_option autoImplicit false
set_option linter.unusedVariables false

namespace DD

variable {W C O : Type}

/-- The call `run` made in `w` collected before it returned `o` and left `w'`.  `w1` is what the call leaves when
collections are switched off, i.e. the world in which the collection started: it uses at least as many slots as the
trigger says, `w'` is what the collection made of it, and the trigger is now twice the slots still used, at least the
floor. -/
def CollectsAt (V : GcView W) (run : W → Option (O × W)) (w : W) (o : O) (w1 w' : W) : Prop :=
  (∀ t, V.used w1 < t → run (V.setTrigger w t) = some (o, V.setTrigger w1 t)) ∧
    V.trigger w ≤ V.used w1 ∧ V.purged w1 w' ∧ V.trigger w' = max (2 * V.used w') (V.floor w)

/-- `Bill V step allow w cs added seen w'`: the calls `cs`, each allowed where it is made, lead from `w` to `w'`;
together they added `added` node slots to those in use, and `seen` sums the slots in use at the start of each automatic
collection. -/
inductive Bill (V : GcView W) (step : W → C → Option (O × W)) (allow : W → C → Prop) :
    W → List C → Nat → Nat → W → Prop
  | nil {w : W} : Bill V step allow w [] 0 0 w
  | quiet {w w' w'' : W} {c : C} {cs : List C} {o : O} {added seen : Nat} : allow w c → step w c = some (o, w') →
      (∀ w1, ¬ CollectsAt V (fun x => step x c) w o w1 w') → Bill V step allow w' cs added seen w'' →
      Bill V step allow w (c :: cs) (V.used w' - V.used w + added) seen w''
  | collect {w w1 w' w'' : W} {c : C} {cs : List C} {o : O} {added seen : Nat} : allow w c → step w c = some (o, w') →
      CollectsAt V (fun x => step x c) w o w1 w' → Bill V step allow w' cs added seen w'' →
      Bill V step allow w (c :: cs) (V.used w1 - V.used w + added) (V.used w1 + seen) w''

/-- The potential argument: twice the nodes in use over the trigger. -/
theorem Bill.bound {V : GcView W} {step : W → C → Option (O × W)} {allow : W → C → Prop} {R : W → Prop}
    (keep : ∀ w c o w', R w → allow w c → step w c = some (o, w') → R w')
    (quiet : ∀ w c o w', R w → allow w c → step w c = some (o, w') →
      (∃ w1, CollectsAt V (fun x => step x c) w o w1 w') ∨ V.trigger w' = V.trigger w)
    {w w' : W} {cs : List C} {added seen : Nat} (hw : R w) (h : Bill V step allow w cs added seen w') :
    seen + (2 * V.used w' - V.trigger w') ≤ 2 * added + (2 * V.used w - V.trigger w) := by
  induction h with
  | nil => omega
  | quiet ha hs hq _ ih =>
    have := ih (keep _ _ _ _ hw ha hs)
    rcases quiet _ _ _ _ hw ha hs with ⟨w1, h1⟩ | h1
    · exact absurd h1 (hq w1)
    · omega
  | collect ha hs hc _ ih =>
    have := ih (keep _ _ _ _ hw ha hs)
    obtain ⟨_, h1, _, h2⟩ := hc
    omega

theorem Bill.exists {V : GcView W} {step : W → C → Option (O × W)} {allow : W → C → Prop} {w w' w'' : W} {c : C} {o : O}
    {cs : List C} (ha : allow w c) (hs : step w c = some (o, w'))
    (h : ∃ added seen, Bill V step allow w' cs added seen w'') :
    ∃ added seen, Bill V step allow w (c :: cs) added seen w'' := by
  obtain ⟨a, s, h⟩ := h
  by_cases hc : ∃ w1, CollectsAt V (fun x => step x c) w o w1 w'
  · obtain ⟨w1, h1⟩ := hc
    exact ⟨_, _, .collect ha hs h1 h⟩
  · exact ⟨_, _, .quiet ha hs (fun w1 h1 => hc ⟨w1, h1⟩) h⟩

/-- A paced call collects or leaves the trigger alone. -/
theorem Paced.collects {V : GcView W} (ht : ∀ w t, V.trigger (V.setTrigger w t) = t) {run : W → Option (O × W)}
    {w w' : W} {o : O} (h : Paced V run w o w') : (∃ w1, CollectsAt V run w o w1 w') ∨ V.trigger w' = V.trigger w := by
  obtain ⟨w1, h1, h2, h3, _, _⟩ := h
  by_cases hlt : V.used w1 < V.trigger w
  · exact .inr (by rw [h2 hlt, ht])
  · exact .inl ⟨w1, h1, by omega, h3 (by omega)⟩

end DD
