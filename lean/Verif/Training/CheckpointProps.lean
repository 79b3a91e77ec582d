import Verif.Training.Checkpoint
import Mathlib.Logic.Equiv.List

/-!
# C41: checkpoints
-/

namespace Lambeq
namespace Train

variable {V : Type}

theorem Dict.get?_set (d : Dict V) (k k' : String) (v : V) :
    (d.set k v).get? k' = if k' = k then some v else d.get? k' := by
  unfold Dict.set
  induction d with
  | nil =>
    by_cases h : k' = k
    · subst h; simp [Dict.get?]
    · simp [Dict.get?, h]; exact fun h' => absurd h'.symm h
  | cons p d ih =>
    obtain ⟨a, b⟩ := p
    by_cases hm : (List.any ((a, b) :: d) fun p => p.1 == k) = true
    · rw [if_pos hm]
      by_cases ha : a = k
      · subst ha
        by_cases h : k' = a
        · subst h; simp [Dict.get?]
        · have h2 : ¬ a = k' := fun e => h e.symm
          simp only [Dict.get?, List.map_cons, beq_self_eq_true, if_true, List.find?_cons, h, if_false]
          simp only [beq_eq_false_iff_ne.2 h2]
          congr 1
          clear hm ih
          induction d with
          | nil => rfl
          | cons q d ih2 =>
            obtain ⟨x, y⟩ := q
            by_cases hx : x = a
            · subst hx
              simp only [List.map_cons, beq_self_eq_true, if_true, List.find?_cons, beq_eq_false_iff_ne.2 h2]
              exact ih2
            · simp only [List.map_cons, beq_eq_false_iff_ne.2 hx, Bool.false_eq_true, if_false, List.find?_cons]
              split
              · rfl
              · exact ih2
      · have hd : (List.any d fun p => p.1 == k) = true := by simpa [ha] using hm
        rw [if_pos hd] at ih
        simp only [List.map_cons, beq_eq_false_iff_ne.2 ha, Bool.false_eq_true, if_false]
        by_cases h' : a = k'
        · subst h'
          simp [Dict.get?, ha]
        · simp only [Dict.get?, List.find?_cons, beq_eq_false_iff_ne.2 h'] at ih ⊢
          exact ih
    · rw [if_neg hm]
      have ha : ¬ a = k := by intro e; exact hm (by simp [e])
      have hd : ¬ (List.any d fun p => p.1 == k) = true := by intro e; exact hm (by simp [e])
      rw [if_neg hd] at ih
      by_cases h' : a = k'
      · subst h'
        simp [Dict.get?, ha]
      · simp only [Dict.get?, List.cons_append, List.find?_cons, beq_eq_false_iff_ne.2 h'] at ih ⊢
        exact ih

/-- The keys and values written by a sequence of operations, in order. -/
def writes : List (CkptOp V) → List (String × V)
  | [] => []
  | .set k v :: ops => (k, v) :: writes ops
  | .addMany vs :: ops => vs ++ writes ops

theorem foldl_set (ws : List (String × V)) (e : Dict V) (k : String) :
    Dict.get? (ws.foldl (fun e p => e.set p.1 p.2) e) k =
      match (ws.filter (fun p => p.1 == k)).getLast? with
      | some p => some p.2
      | none => e.get? k := by
  induction ws generalizing e with
  | nil => rfl
  | cons w ws ih =>
    rw [List.foldl_cons, ih, Dict.get?_set]
    by_cases h : w.1 = k
    · subst h
      simp only [List.filter_cons, beq_self_eq_true, if_true]
      cases hg : (ws.filter (fun p => p.1 == w.1)).getLast? with
      | none =>
        have := List.getLast?_eq_none_iff.1 hg
        simp [this]
      | some p =>
        have hne : ws.filter (fun p => p.1 == w.1) ≠ [] := by intro e; rw [e] at hg; simp at hg
        obtain ⟨x, xs, hx⟩ := List.exists_cons_of_ne_nil hne
        rw [hx] at hg ⊢
        rw [List.getLast?_cons_cons, hg]
    · have h2 : ¬ k = w.1 := fun e => h e.symm
      simp [h, h2]

theorem apply_writes (ops : List (CkptOp V)) (e : Dict V) :
    ops.foldl CkptOp.apply e = (writes ops).foldl (fun e p => e.set p.1 p.2) e := by
  induction ops generalizing e with
  | nil => rfl
  | cons op ops ih =>
    cases op with
    | set k v => simp [writes, CkptOp.apply, ih]
    | addMany vs => simp [writes, CkptOp.apply, ih, List.foldl_append]

theorem any_get? (e : Dict V) (k : String) : (e.any (fun p => p.1 == k)) = (e.get? k).isSome := by
  induction e with
  | nil => rfl
  | cons p e ih =>
    obtain ⟨a, b⟩ := p
    by_cases h : a = k
    · simp [Dict.get?, h]
    · simp only [List.any_cons, beq_eq_false_iff_ne.2 h, Bool.false_or, ih, Dict.get?, List.find?_cons]

theorem set_keys (e : Dict V) (k : String) (v : V) (h : (e.map (·.1)).Nodup) :
    ((e.set k v).map (·.1)).Nodup ∧ ∀ x, x ∈ (e.set k v).map (·.1) ↔ x = k ∨ x ∈ e.map (·.1) := by
  unfold Dict.set
  split
  · rename_i hm
    have : (e.map (fun p => if p.1 == k then (k, v) else p)).map (·.1) = e.map (·.1) := by
      rw [List.map_map]
      refine List.map_congr_left (fun p _ => ?_)
      by_cases hp : p.1 = k <;> simp [hp]
    rw [this]
    refine ⟨h, fun x => ⟨.inr, ?_⟩⟩
    rintro (rfl | hx)
    · simpa using hm
    · exact hx
  · rename_i hm
    have hk : k ∉ e.map (·.1) := by
      intro hx
      obtain ⟨p, hp, hpk⟩ := List.mem_map.1 hx
      exact hm (List.any_eq_true.2 ⟨p, hp, by simp [hpk]⟩)
    refine ⟨?_, ?_⟩
    · rw [List.map_append, List.nodup_append]
      exact ⟨h, by simp, by rintro a ha b hb rfl; simp at hb; exact hk (hb ▸ ha)⟩
    · intro x; simp; exact or_comm

/-- **C41 (map).** After any sequence of `c[k] = v` and `c.add_many(...)` on a fresh checkpoint, `c[k]` is the value last
written under `k`, a key never written raises `KeyError`, and `len(c)` is the number of distinct keys written. -/
theorem C41_map (ops : List (CkptOp V)) (k : String) :
    let c := ops.foldl CkptOp.apply ([] : Dict V)
    (∀ v, ((writes ops).filter (fun p => p.1 == k)).getLast? = some (k, v) → ckptGet c k = .ok v) ∧
    ((∀ v, (k, v) ∉ writes ops) → ckptGet c k = .error .keyError) ∧
    (c.map (·.1)).Nodup ∧ (∀ x, x ∈ c.map (·.1) ↔ ∃ v, (x, v) ∈ writes ops) ∧ ckptLen c = (c.map (·.1)).length := by
  intro c
  have hc : ∀ k, c.get? k = match ((writes ops).filter (fun p => p.1 == k)).getLast? with
      | some p => some p.2
      | none => none := by
    intro k
    have := foldl_set (writes ops) [] k
    rw [← apply_writes] at this
    exact this
  have hk : ∀ (ws : List (String × V)) (e : Dict V), (e.map (·.1)).Nodup →
      (((ws.foldl (fun e p => e.set p.1 p.2) e).map (·.1)).Nodup ∧
        ∀ x, x ∈ (ws.foldl (fun e p => e.set p.1 p.2) e).map (·.1) ↔ x ∈ e.map (·.1) ∨ ∃ v, (x, v) ∈ ws) := by
    intro ws
    induction ws with
    | nil => intro e h; exact ⟨h, by simp⟩
    | cons w ws ih =>
      intro e h
      obtain ⟨h1, h2⟩ := set_keys e w.1 w.2 h
      obtain ⟨h3, h4⟩ := ih _ h1
      refine ⟨h3, fun x => ?_⟩
      rw [List.foldl_cons, h4, h2]
      obtain ⟨a, b⟩ := w
      constructor
      · rintro ((rfl | h) | ⟨v, h⟩)
        · exact .inr ⟨b, by simp⟩
        · exact .inl h
        · exact .inr ⟨v, by simp [h]⟩
      · rintro (h | ⟨v, h⟩)
        · exact .inl (.inr h)
        · rcases List.mem_cons.1 h with h | h
          · cases h; exact .inl (.inl rfl)
          · exact .inr ⟨v, h⟩
  have hk0 := hk (writes ops) [] (by simp)
  rw [← apply_writes] at hk0
  refine ⟨?_, ?_, hk0.1, ?_, by simp [ckptLen]⟩
  · intro v hv
    have : c.get? k = some v := by rw [hc, hv]
    simp [ckptGet, any_get?, this]
  · intro hv
    have : c.get? k = none := by
      rw [hc]
      have : (writes ops).filter (fun p => p.1 == k) = [] := by
        rw [List.filter_eq_nil_iff]
        rintro ⟨a, b⟩ hp
        simp only [beq_iff_eq]
        rintro rfl
        exact hv b hp
      rw [this]; rfl
    simp [ckptGet, any_get?, this]
  · intro x; simpa using hk0.2 x

/-- Non-vacuity: overwriting through `add_many`. -/
example : ckptGet ([CkptOp.set "a" 1, .addMany [("b", 2), ("a", 3)]].foldl CkptOp.apply []) "a" = .ok 3 ∧
    ckptGet ([CkptOp.set "a" 1, .addMany [("b", 2), ("a", 3)]].foldl CkptOp.apply []) "c" = .error .keyError := by
  decide +kernel

/-- **C41 (round trip).** If `pickle.load` inverts `pickle.dump`, then after `c.to_file(path)` (which empties `c`),
`Checkpoint.from_file(path)` has the entries `c` had, whatever was in the file before, and no other file changes. Loading
from a path without a file, and saving to a path without a directory, raise `FileNotFoundError`. -/
theorem C41_round_trip (P : Pickle V) (hP : ∀ e, P.load (P.dump e) = some e) (dirs : String → Bool) (fs : Files)
    (path : String) (e : Dict V) :
    (dirs path = true → ∃ fs', toFile P dirs fs path e = .ok (fs', []) ∧ fromFile P fs' path = .ok e ∧
      ∀ p, p ≠ path → fs' p = fs p) ∧
    (dirs path = false → toFile P dirs fs path e = .error .fileNotFound) ∧
    (fs path = none → fromFile P fs path = .error .fileNotFound) := by
  refine ⟨fun h => ⟨fs.write path (P.dump e), by simp [toFile, h], ?_, ?_⟩, fun h => by simp [toFile, h], fun h => by simp [fromFile, h]⟩
  · simp [fromFile, Files.write, hP]
  · intro p hp; simp [Files.write, hp]

/-- Strings as lists of numbers. -/
instance : Encodable String := Encodable.ofLeftInjection (fun s => s.toList.map Char.toNat)
  (fun l => some (String.ofList (l.map Char.ofNat))) (fun s => by
    simp [Function.comp_def])

/-- A pickle format, to show that the hypotheses on `Pickle` used in this file can be met together: the code number of the
dict in unary, ended by a stop byte. -/
def toyPickle : Pickle Nat where
  dump e := List.replicate (Encodable.encode (α := List (String × Nat)) e) 1 ++ [0]
  load c := if c = List.replicate (c.length - 1) 1 ++ [0] then Encodable.decode (α := List (String × Nat)) (c.length - 1) else none

theorem toyPickle_ok : (∀ e, toyPickle.load (toyPickle.dump e) = some e) ∧ toyPickle.load [] = none ∧
    ∀ e n, n < (toyPickle.dump e).length → toyPickle.load ((toyPickle.dump e).take n) = none := by
  refine ⟨fun e => by simp [toyPickle], by decide, fun e n hn => ?_⟩
  simp only [toyPickle, List.length_append, List.length_replicate, List.length_singleton] at hn ⊢
  rw [List.take_append_of_le_length (by simp; omega), List.take_replicate, Nat.min_eq_left (by omega), if_neg]
  intro h
  have : (0 : UInt8) ∈ List.replicate n (1 : UInt8) := by rw [h]; simp
  have := List.eq_of_mem_replicate this
  exact absurd this (by decide)

/-- **C41, refuted for crashes.** Whatever the pickle format, as long as the empty file is not a pickle: for every
checkpoint already saved under `path` and every new one, there is a crash point of `to_file` after which
`from_file(path)` fails, so the old checkpoint is lost and the new one is not there. -/
theorem C41_refuted_crash (P : Pickle V) (h0 : P.load [] = none) (hP : ∀ e, P.load (P.dump e) = some e) (fs : Files)
    (path : String) (old new : Dict V) :
    let saved := fs.write path (P.dump old)
    fromFile P saved path = .ok old ∧
    ∃ fs' ∈ crashStates P saved path new, fromFile P fs' path = .error .unpickling := by
  refine ⟨by simp [fromFile, Files.write, hP], (fs.write path (P.dump old)).write path [], ?_, ?_⟩
  · refine List.mem_cons_of_mem _ (List.mem_map.2 ⟨0, by simp, by simp⟩)
  · simp [fromFile, Files.write, h0]

/-- Non-vacuity, with the format above. -/
example : ∃ fs' ∈ crashStates toyPickle (Files.write (fun _ => none) "model.lt" (toyPickle.dump [("epoch", 1)])) "model.lt" [("epoch", 2)],
    fromFile toyPickle fs' "model.lt" = .error .unpickling :=
  (C41_refuted_crash toyPickle toyPickle_ok.2.1 toyPickle_ok.1 _ _ _ _).2

/-- **C41 (crash-safe half).** If no proper prefix of a pickle is a pickle, a crash never leaves a wrong checkpoint: whatever
the crash point, loading gives the old entries, the new entries, or an error. -/
theorem C41_crash_no_corruption (P : Pickle V) (hP : ∀ e, P.load (P.dump e) = some e)
    (hpre : ∀ e n, n < (P.dump e).length → P.load ((P.dump e).take n) = none) (fs : Files) (path : String) (old new : Dict V)
    (fs' : Files) (h : fs' ∈ crashStates P (fs.write path (P.dump old)) path new) :
    fromFile P fs' path = .ok old ∨ fromFile P fs' path = .ok new ∨ fromFile P fs' path = .error .unpickling := by
  rcases List.mem_cons.1 h with rfl | h
  · left; simp [fromFile, Files.write, hP]
  · obtain ⟨n, hn, rfl⟩ := List.mem_map.1 h
    by_cases hl : n < (P.dump new).length
    · right; right; simp [fromFile, Files.write, hpre new n hl]
    · right; left
      rw [List.take_of_length_le (by omega)]
      simp [fromFile, Files.write, hP]

end Train
end Lambeq
