import Mathlib.Algebra.Order.Floor.Ring
import Mathlib.Data.Rat.Floor
import Mathlib.Tactic.Linarith
import Mathlib.Tactic.NormNum
import Mathlib.Tactic.Ring
import Mathlib.Tactic.Positivity

/-!
# Durations for people (C101)

Models core/utils.py: `normalise_duration` (49-97). Numbers are exact: the rounding errors of floating point arithmetic are not modelled, rounding to the digits that are shown is.
-/

namespace Lambeq
namespace Duration
set_option linter.unusedSimpArgs false

/-- `round(q)` of Python: to the nearest integer, ties to the even one. -/
def roundEven (q : ℚ) : Int :=
  if q - ⌊q⌋ < 1 / 2 then ⌊q⌋ else if q - ⌊q⌋ > 1 / 2 then ⌊q⌋ + 1 else if ⌊q⌋ % 2 = 0 then ⌊q⌋ else ⌊q⌋ + 1

/-- utils.py:77, 79, 81: the days, hours and minutes. -/
def days (d : ℚ) : Int := ⌊d / 86400⌋
def hours (d : ℚ) : Int := ⌊(d - days d * 86400) / 3600⌋
def minutes (d : ℚ) : Int := ⌊(d - days d * 86400 - hours d * 3600) / 60⌋

/-- utils.py:82 -/
def secs (d : ℚ) : ℚ := d - days d * 86400 - hours d * 3600 - minutes d * 60

/-- utils.py:84-90: the fields that are not 0. -/
def fields (d : ℚ) : List (Int × Char) :=
  (if days d ≠ 0 then [(days d, 'd')] else []) ++ (if hours d ≠ 0 then [(hours d, 'h')] else []) ++ (if minutes d ≠ 0 then [(minutes d, 'm')] else [])

/-- The two digits after the point of `f'{q:.2f}'`, for the rounded number of hundredths. -/
def cents (n : Nat) : String := (if n < 10 then "0" else "") ++ toString n

/-- `f'{q:.2f}'` -/
def fixed2 (q : ℚ) : String :=
  (if q < 0 then "-" else "") ++ toString ((roundEven (q * 100)).natAbs / 100) ++ "." ++ cents ((roundEven (q * 100)).natAbs % 100)

/-- utils.py:49-97 -/
def normalise : Option ℚ → String
  | none => "None"
  | some d =>
    let out := (fields d).map (fun f => toString f.1 ++ String.singleton f.2)
    String.join (if out ≠ [] then out ++ [toString (roundEven (secs d)) ++ "s"] else out ++ [fixed2 (secs d) ++ "s"])

/-! ## Specification -/

/-- The seconds of a unit. -/
def unit : Char → ℚ
  | 'd' => 86400
  | 'h' => 3600
  | 'm' => 60
  | _ => 1

/-- The seconds that a list of fields stands for. -/
def value (fs : List (ℚ × Char)) : ℚ := (fs.map (fun f => f.1 * unit f.2)).sum

/-- The fields that are shown, as numbers: whole seconds if there is another field, otherwise seconds with two digits. -/
def shown (d : ℚ) : List (ℚ × Char) :=
  (fields d).map (fun f => ((f.1 : ℚ), f.2)) ++ (if fields d ≠ [] then [((roundEven (secs d) : ℚ), 's')] else [((roundEven (secs d * 100) : ℚ) / 100, 's')])

/-! ## Theorems -/

theorem roundEven_spec (q : ℚ) : |(roundEven q : ℚ) - q| ≤ 1 / 2 := by
  have h1 := Int.floor_le q
  have h2 := Int.lt_floor_add_one q
  unfold roundEven
  rw [abs_le]
  split
  · constructor <;> linarith
  · split
    · push_cast; constructor <;> linarith
    · split
      · constructor <;> linarith
      · push_cast; constructor <;> linarith

theorem secs_range (d : ℚ) : 0 ≤ secs d ∧ secs d < 60 := by
  have h1 := Int.floor_le ((d - days d * 86400 - hours d * 3600) / 60)
  have h2 := Int.lt_floor_add_one ((d - days d * 86400 - hours d * 3600) / 60)
  have e : ((minutes d : Int) : ℚ) = (⌊(d - days d * 86400 - hours d * 3600) / 60⌋ : ℚ) := rfl
  unfold secs
  rw [e]
  rw [le_div_iff₀ (by norm_num)] at h1
  rw [div_lt_iff₀ (by norm_num)] at h2
  constructor <;> linarith

theorem fields_value (d : ℚ) : value ((fields d).map (fun f => ((f.1 : ℚ), f.2))) = days d * 86400 + hours d * 3600 + minutes d * 60 := by
  unfold fields value
  by_cases h1 : days d = 0 <;> by_cases h2 : hours d = 0 <;> by_cases h3 : minutes d = 0 <;> simp [h1, h2, h3, unit] <;> ring

/-- **C101 (value).** What is shown differs from the duration by at most half a second, and by at most half a hundredth of a second if the duration is shown in seconds alone. -/
theorem C101_value (d : ℚ) : |value (shown d) - d| ≤ (if fields d = [] then 1 / 200 else 1 / 2) := by
  have hv := fields_value d
  have hs : d = (days d : ℚ) * 86400 + hours d * 3600 + minutes d * 60 + secs d := by unfold secs; ring
  have hu : unit 's' = 1 := rfl
  have happ : ∀ a b : List (ℚ × Char), value (a ++ b) = value a + value b := fun a b => by simp [value]
  by_cases h : fields d = []
  · rw [if_pos h, shown, happ, hv, if_neg (by simp [h])]
    have := roundEven_spec (secs d * 100)
    rw [abs_le] at this ⊢
    simp only [value, List.map_cons, List.map_nil, List.sum_cons, List.sum_nil, hu]
    constructor <;> linarith
  · rw [if_neg h, shown, happ, hv, if_pos h]
    have := roundEven_spec (secs d)
    rw [abs_le] at this ⊢
    simp only [value, List.map_cons, List.map_nil, List.sum_cons, List.sum_nil, hu]
    constructor <;> linarith

/-- **C101 (text).** The text is made of the shown fields: whole seconds after another field, otherwise seconds with two digits. -/
theorem C101_text (d : ℚ) : (fields d ≠ [] → normalise (some d) = String.join ((fields d).map (fun f => toString f.1 ++ String.singleton f.2)) ++ (toString (roundEven (secs d)) ++ "s")) ∧
    (fields d = [] → secs d = d ∧ normalise (some d) = fixed2 d ++ "s") := by
  constructor
  · intro h
    simp [normalise, h, String.join_append]
  · intro h
    have h0 : days d = 0 ∧ hours d = 0 ∧ minutes d = 0 := by
      unfold fields at h
      by_cases e1 : days d = 0 <;> by_cases e2 : hours d = 0 <;> by_cases e3 : minutes d = 0 <;> simp_all
    have hs : secs d = d := by unfold secs; rw [h0.1, h0.2.1, h0.2.2]; push_cast; ring
    refine ⟨hs, ?_⟩
    simp [normalise, h, hs, String.join]

/-- The hundredths of a second are shown with two digits. -/
theorem cents_digits : ∀ n : Fin 100, cents n.1 = String.ofList [Nat.digitChar (n.1 / 10), Nat.digitChar (n.1 % 10)] := by decide +kernel

/-- **C101 (text, below a minute).** A duration that is not negative and shown in seconds alone is shown as the number of whole seconds, a point, and two digits, for the rounded number of hundredths of a second. -/
theorem C101_text_seconds {d : ℚ} (hd : 0 ≤ d) (h : fields d = []) : ∃ n : Nat, (n : Int) = roundEven (d * 100) ∧
    normalise (some d) = toString (n / 100) ++ "." ++ String.ofList [Nat.digitChar (n % 100 / 10), Nat.digitChar (n % 10)] ++ "s" := by
  have h0 : 0 ≤ roundEven (d * 100) := by
    have := roundEven_spec (d * 100)
    rw [abs_le] at this
    have h2 : (-1 : ℚ) < roundEven (d * 100) := by linarith
    have : (-1 : Int) < roundEven (d * 100) := by exact_mod_cast h2
    omega
  refine ⟨(roundEven (d * 100)).natAbs, by omega, ?_⟩
  rw [((C101_text d).2 h).2, fixed2, if_neg (by linarith)]
  have := cents_digits ⟨(roundEven (d * 100)).natAbs % 100, Nat.mod_lt _ (by norm_num)⟩
  simp only at this
  rw [this, Nat.mod_mod_of_dvd _ (by norm_num)]
  simp

/-- **C101 (fields).** For a duration that is not negative, the days are positive, the hours between 1 and 23, the minutes between 1 and 59 whenever they are shown, each unit occurs at most once, from large to small,
and the seconds are between 0 and 60. -/
theorem C101_fields {d : ℚ} (hd : 0 ≤ d) : (∀ f ∈ fields d, 0 < f.1 ∧ (f.2 = 'h' → f.1 < 24) ∧ (f.2 = 'm' → f.1 < 60)) ∧ ((fields d).map Prod.snd).Sublist ['d', 'h', 'm'] ∧
    0 ≤ roundEven (secs d) ∧ roundEven (secs d) ≤ 60 := by
  have d0 : 0 ≤ days d := Int.floor_nonneg.2 (by positivity)
  have d1 : 0 ≤ d - days d * 86400 ∧ d - days d * 86400 < 86400 := by
    have h1 := Int.floor_le (d / 86400)
    have h2 := Int.lt_floor_add_one (d / 86400)
    have e : ((days d : Int) : ℚ) = (⌊d / 86400⌋ : ℚ) := rfl
    rw [e]
    rw [le_div_iff₀ (by norm_num)] at h1
    rw [div_lt_iff₀ (by norm_num)] at h2
    constructor <;> linarith
  have h0 : 0 ≤ hours d := Int.floor_nonneg.2 (div_nonneg d1.1 (by norm_num))
  have h24 : hours d < 24 := by
    rw [hours, Int.floor_lt, div_lt_iff₀ (by norm_num)]
    push_cast; linarith [d1.2]
  have h1 : 0 ≤ d - days d * 86400 - hours d * 3600 ∧ d - days d * 86400 - hours d * 3600 < 3600 := by
    have h1 := Int.floor_le ((d - days d * 86400) / 3600)
    have h2 := Int.lt_floor_add_one ((d - days d * 86400) / 3600)
    have e : ((hours d : Int) : ℚ) = (⌊(d - days d * 86400) / 3600⌋ : ℚ) := rfl
    rw [e]
    rw [le_div_iff₀ (by norm_num)] at h1
    rw [div_lt_iff₀ (by norm_num)] at h2
    constructor <;> linarith
  have m0 : 0 ≤ minutes d := Int.floor_nonneg.2 (div_nonneg h1.1 (by norm_num))
  have m60 : minutes d < 60 := by
    rw [minutes, Int.floor_lt, div_lt_iff₀ (by norm_num)]
    push_cast; linarith [h1.2]
  obtain ⟨s0, s1⟩ := secs_range d
  have hr := roundEven_spec (secs d)
  rw [abs_le] at hr
  refine ⟨?_, ?_, ?_, ?_⟩
  · intro f hf
    unfold fields at hf
    simp only [List.mem_append] at hf
    rcases hf with (hf | hf) | hf
    · split at hf
      · simp only [List.mem_singleton] at hf
        subst hf
        exact ⟨by simp only; omega, by simp, by simp⟩
      · cases hf
    · split at hf
      · simp only [List.mem_singleton] at hf
        subst hf
        exact ⟨by simp only; omega, fun _ => h24, by simp⟩
      · cases hf
    · split at hf
      · simp only [List.mem_singleton] at hf
        subst hf
        exact ⟨by simp only; omega, by simp, fun _ => m60⟩
      · cases hf
  · unfold fields
    by_cases e1 : days d = 0 <;> by_cases e2 : hours d = 0 <;> by_cases e3 : minutes d = 0 <;> simp [e1, e2, e3]
  · have : (-1 : ℚ) < roundEven (secs d) := by linarith
    have : (-1 : Int) < roundEven (secs d) := by exact_mod_cast this
    omega
  · have : (roundEven (secs d) : ℚ) < 61 := by linarith
    have : roundEven (secs d) < (61 : Int) := by exact_mod_cast this
    omega

/-- **C101 (when 60 is shown).** The seconds are shown as 60, after minutes, hours or days, exactly when they are at least 59.5. -/
theorem C101_sixty (d : ℚ) : roundEven (secs d) = 60 ↔ 59 + 1 / 2 ≤ secs d := by
  obtain ⟨s0, s1⟩ := secs_range d
  constructor
  · intro h
    have := roundEven_spec (secs d)
    rw [h, abs_le] at this
    push_cast at this
    linarith
  · intro h
    have hf : ⌊secs d⌋ = 59 := by
      rw [Int.floor_eq_iff]; push_cast; constructor <;> linarith
    unfold roundEven
    rw [hf]
    push_cast
    rw [if_neg (by linarith)]
    split <;> norm_num

/-- **C101 (refuted).** The seconds are not always less than 60: 119.6 seconds are shown as `1m60s` and 59.999 seconds as `60.00s`. A duration of minus one second is shown as `-1d23h59m59s`. -/
theorem C101_sixty_refuted : normalise (some (1196 / 10)) = "1m60s" ∧ normalise (some (59999 / 1000)) = "60.00s" ∧ normalise (some (-1)) = "-1d23h59m59s" := by
  decide +kernel

example : normalise (some 4890) = "1h21m30s" ∧ normalise (some 65) = "1m5s" ∧ normalise (some (29182375 / 100000000)) = "0.29s" ∧ normalise (some (29682375 / 100000000)) = "0.30s" ∧
    normalise none = "None" ∧ normalise (some 86400) = "1d0s" := by decide +kernel

end Duration
end Lambeq
