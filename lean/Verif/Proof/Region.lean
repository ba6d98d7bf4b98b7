/- Lemmas on OpenMP regions. -/
import Verif.Model.Items
import Verif.Proof.Sched

namespace OTFFT
namespace Items
variable {C : Type}

/-- every construct ends with a barrier -/
def Barriered (a : Items C) : Prop := ∀ i ∈ a, i.2 = true

theorem Barriered.append {a b : Items C} (ha : Barriered a) (hb : Barriered b) :
    Barriered (a ++ b) := by
  intro i hi
  rcases List.mem_append.1 hi with h | h
  · exact ha i h
  · exact hb i h

theorem barriered_loop {k : LoopKind} (hk : k ≠ .ompNowait) (ts : List (Task C)) :
    Barriered (Items.loop k ts) := by
  cases k with
  | serial => intro i hi; simp [Items.loop] at hi; obtain ⟨t, _, rfl⟩ := hi; rfl
  | omp => intro i hi; simp [Items.loop] at hi; rw [hi]
  | ompNowait => exact absurd rfl hk

theorem region_append {a b : Items C} (ha : Barriered a) :
    region (a ++ b) = region a ++ region b := by
  induction a with
  | nil => rfl
  | cons i a ih =>
    obtain ⟨ts, bb⟩ := i
    have : bb = true := ha (ts, bb) (by simp)
    subst this
    simp only [List.cons_append, region]
    rw [ih (fun j hj => ha j (by simp [hj]))]

theorem region_loop (k : LoopKind) (ts : List (Task C)) :
    region (Items.loop k ts) = Code.loop (k != .serial) ts := by
  cases k with
  | serial =>
    simp only [Items.loop, Code.loop, bne_self_eq_false]
    induction ts with
    | nil => rfl
    | cons t ts ih => simpa [region] using ih
  | omp => rfl
  | ompNowait => rfl

end Items
end OTFFT
