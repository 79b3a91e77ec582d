import Verif.Store.Download
import Mathlib.Data.List.DropRight

/-!
# The cache of parser models, the theorems (C92)
-/

namespace Lambeq
namespace Store

theorem strip_eq (s : List Char) : strip s = (s.dropWhile Char.isWhitespace).rdropWhile Char.isWhitespace := rfl

theorem strip_idem (s : List Char) : strip (strip s) = strip s := by
  rw [strip_eq (strip s)]
  have h1 : (strip s).dropWhile Char.isWhitespace = strip s := by
    cases h : strip s with
    | nil => rfl
    | cons c cs =>
      have hp : strip s <+: s.dropWhile Char.isWhitespace := List.rdropWhile_prefix _ _
      rw [h] at hp
      obtain ⟨t, ht⟩ := hp
      have hc : ¬ Char.isWhitespace c = true := by
        intro hc
        have h2 := List.dropWhile_get_zero_not (p := Char.isWhitespace) s (by rw [← ht]; simp)
        have h3 : (s.dropWhile Char.isWhitespace).head? = some c := by rw [← ht]; rfl
        rw [List.get_eq_getElem, List.getElem_zero] at h2
        rw [List.head?_eq_some_head (by rw [← ht]; simp)] at h3
        rw [Option.some.inj h3] at h2
        exact h2 hc
      rw [List.dropWhile_cons_of_neg hc]
  rw [h1, strip_eq, List.rdropWhile_idempotent]

/-! ## Writes -/

theorem runs_append (a b : List Write) (d : Disk) : runs (a ++ b) d = runs b (runs a d) := by rw [runs, List.foldl_append]; rfl

theorem runs_put (f : String) (s : List Char) : ∀ (d : String → Option (List Char)) (a : List Char), d f = some a →
    runs (s.map (.put f)) (some d) = some (Function.update d f (some (a ++ s))) := by
  induction s with
  | nil => intro d a h; simp [runs, ← h]
  | cons c s ih =>
    intro d a h
    rw [List.map_cons, runs, List.foldl_cons]
    have := ih (Function.update d f (some (a ++ [c]))) (a ++ [c]) (by simp)
    rw [runs] at this
    have e : (Write.put f c).run (some d) = some (Function.update d f (some (a ++ [c]))) := by simp only [Write.run, h, Option.getD_some]
    rw [e, this]
    simp

theorem runs_writeFile (f : String) (s : List Char) (d : String → Option (List Char)) : runs (writeFile f s) (some d) = some (Function.update d f (some s)) := by
  have := runs_put f s (Function.update d f (some [])) [] (by simp)
  rw [writeFile, runs, List.foldl_cons]
  rw [runs] at this
  have e : (Write.create f).run (some d) = some (Function.update d f (some [])) := rfl
  rw [e, this]
  simp

/-- The file that a write changes. -/
def Write.file : Write → Option String
  | .mkdir => none
  | .create f => some f
  | .put f _ => some f

theorem runs_other (f : String) (ws : List Write) (h : ∀ w ∈ ws, w.file ≠ some f) : ∀ d : String → Option (List Char), ∃ d', runs ws (some d) = some d' ∧ d' f = d f := by
  induction ws with
  | nil => intro d; exact ⟨d, rfl, rfl⟩
  | cons w ws ih =>
    intro d
    have hw := h w List.mem_cons_self
    have ih := ih (fun w hw => h w (List.mem_cons_of_mem _ hw))
    rw [runs, List.foldl_cons]
    cases w with
    | mkdir => exact ih d
    | create g =>
      obtain ⟨d', e1, e2⟩ := ih (Function.update d g (some []))
      refine ⟨d', e1, e2.trans (Function.update_of_ne ?_ _ _)⟩
      rintro rfl; exact hw rfl
    | put g c =>
      obtain ⟨d', e1, e2⟩ := ih (Function.update d g (some ((d g).getD [] ++ [c])))
      refine ⟨d', e1, e2.trans (Function.update_of_ne ?_ _ _)⟩
      rintro rfl; exact hw rfl

theorem writeFile_file (f : String) (s : List Char) : ∀ w ∈ writeFile f s, w.file = some f := by
  intro w hw
  rcases List.mem_cons.1 hw with rfl | hw
  · rfl
  · obtain ⟨c, _, rfl⟩ := List.mem_map.1 hw; rfl

theorem copyTree_file (files : List (String × List Char)) (f : String) (h : f ∉ files.map Prod.fst) : ∀ w ∈ copyTree files, w.file ≠ some f := by
  intro w hw
  rcases List.mem_cons.1 hw with rfl | hw
  · simp [Write.file]
  · obtain ⟨p, hp, hw⟩ := List.mem_flatMap.1 hw
    rw [writeFile_file p.1 p.2 w hw]
    rintro e
    exact h (List.mem_map.2 ⟨p, hp, Option.some.inj e⟩)

theorem runs_files (files : List (String × List Char)) (hn : (files.map Prod.fst).Nodup) : ∀ d : String → Option (List Char),
    ∃ d', runs (files.flatMap (fun p => writeFile p.1 p.2)) (some d) = some d' ∧ (∀ p ∈ files, d' p.1 = some p.2) ∧ ∀ f, f ∉ files.map Prod.fst → d' f = d f := by
  induction files with
  | nil => intro d; exact ⟨d, rfl, by simp, fun _ _ => rfl⟩
  | cons p ps ih =>
    intro d
    rw [List.map_cons, List.nodup_cons] at hn
    obtain ⟨d', e1, e2, e3⟩ := ih hn.2 (Function.update d p.1 (some p.2))
    refine ⟨d', by rw [List.flatMap_cons, runs_append, runs_writeFile]; exact e1, ?_, ?_⟩
    · intro q hq
      rcases List.mem_cons.1 hq with rfl | hq
      · rw [e3 _ hn.1, Function.update_self]
      · exact e2 q hq
    · intro f hf
      rw [List.map_cons, List.mem_cons, not_or] at hf
      rw [e3 f hf.2, Function.update_of_ne hf.1]

/-- The directory before the writes of a download. -/
def Disk.base (d : Disk) : String → Option (List Char) := d.getD (fun _ => none)

theorem runs_mkdir (ws : List Write) (d : Disk) : runs (.mkdir :: ws) d = runs ws (some d.base) := by
  cases d <;> rfl

theorem runs_copyTree (files : List (String × List Char)) (hn : (files.map Prod.fst).Nodup) (d : Disk) :
    ∃ d', runs (copyTree files) d = some d' ∧ (∀ p ∈ files, d' p.1 = some p.2) ∧ ∀ f, f ∉ files.map Prod.fst → d' f = d.base f := by
  rw [copyTree, runs_mkdir]
  exact runs_files files hn d.base

/-- What a download needs, and its writes. -/
theorem download_ok {env : Env} {s : Server} {ws : List Write} (h : download env s = .ok ws) :
    ∃ v sum body files, remoteVersion s = some v ∧ s.checksum = some sum ∧ s.archive = some (200, body) ∧ env.sha body = firstField sum ∧ env.untar body = some files ∧
      ws = copyTree files ++ writeFile versionFile v := by
  unfold download at h
  cases hv : remoteVersion s with
  | none => rw [hv] at h; simp at h
  | some v =>
    cases hs : s.checksum with
    | none => rw [hv, hs] at h; simp at h
    | some sum =>
      cases ha : s.archive with
      | none => rw [hv, hs, ha] at h; simp at h
      | some sb =>
        obtain ⟨status, body⟩ := sb
        rw [hv, hs, ha] at h
        simp only at h
        split at h
        · simp at h
        · split at h
          · simp at h
          · rename_i h1 h2
            cases hu : env.untar body with
            | none => rw [hu] at h; simp at h
            | some files =>
              rw [hu] at h
              have h1 : status = 200 := by simpa using h1
              have h2 : env.sha body = firstField sum := by simpa using h2
              subst h1
              exact ⟨v, sum, body, files, rfl, rfl, rfl, h2, hu, (Except.ok.inj h).symm⟩

/-- A session writes nothing, or it writes a download. -/
theorem session_cases (env : Env) (s : Server) (force : Bool) (d : Disk) : (session env s force d).1 = [] ∨
    ((force = true ∨ d = none ∨ isStale s d = true) ∧ ∃ ws, download env s = .ok ws ∧ session env s force d = (ws, .loads)) := by
  unfold session
  by_cases h : (force || d.isNone || isStale s d) = true
  · rw [if_pos h]
    cases hd : download env s with
    | ok ws =>
      right
      refine ⟨?_, ws, rfl, rfl⟩
      simp only [Bool.or_eq_true, Option.isNone_iff_eq_none] at h
      tauto
    | error e =>
      cases e
      · simp only
        split <;> exact .inl rfl
      · exact .inl rfl
  · rw [if_neg h]; exact .inl rfl

/-! ## Sessions without crashes -/

/-- C92: a session that raises leaves the directory as it was, whatever the server answers (with the crash points that are left: none). -/
theorem C92_raises_unchanged (env : Env) (s : Server) (force : Bool) (crash : Option Nat) (d : Disk) (e : Err) (h : (session env s force d).2 = .raises e) :
    after env s force crash d = d := by
  rcases session_cases env s force d with h1 | ⟨_, ws, _, h2⟩
  · unfold after
    cases crash <;> simp [h1, runs]
  · rw [h2] at h; simp at h

/-- C92: without `force_download`, nothing is written where the directory is there and the server's version is its version, or the server does not answer. -/
theorem C92_fresh (env : Env) (s : Server) (d : Disk) (hd : d ≠ none) (h : remoteVersion s = none ∨ remoteVersion s = localVersion d) :
    session env s false d = ([], .loads) := by
  have h1 : isStale s d = false := by
    unfold isStale
    rcases h with h | h
    · rw [h]
    · cases hr : remoteVersion s with
      | none => rfl
      | some v => rw [hr] at h; simp [← h]
  have h2 : d.isNone = false := by cases d with
    | none => exact absurd rfl hd
    | some _ => rfl
  rw [session, h1, h2]
  rfl

/-- C92: from any directory, however it came about, a session without a crash and with a server that answers loads the model; afterwards the local version is that of the server; if it was not before
or `force_download` is set, all files of the release are there, and no file that is not of the release has changed. -/
theorem C92_update (env : Env) (s : Server) (force : Bool) (d : Disk) (v : List Char) (files : List (String × List Char)) (hs : Serves env v files s)
    (hn : (files.map Prod.fst).Nodup) (hf : versionFile ∉ files.map Prod.fst) :
    (session env s force d).2 = .loads ∧ localVersion (after env s force none d) = some v ∧
      (force = true ∨ d = none ∨ localVersion d ≠ some v → Complete files (after env s force none d)) ∧
      ∀ d0 d1 f, d = some d0 → after env s force none d = some d1 → f ∉ files.map Prod.fst → f ≠ versionFile → d1 f = d0 f := by
  obtain ⟨⟨r, hr, rfl⟩, sum, body, h1, h2, h3, h4⟩ := hs
  have hrv : remoteVersion s = some (strip r) := by rw [remoteVersion, hr]; rfl
  have hd : download env s = .ok (copyTree files ++ writeFile versionFile (strip r)) := by
    unfold download
    rw [hrv, h1, h2]
    simp only
    rw [if_neg (by simp), if_neg (by simp [h3]), h4]
  by_cases hc : (force || d.isNone || isStale s d) = true
  · have hse : session env s force d = (copyTree files ++ writeFile versionFile (strip r), .loads) := by rw [session, if_pos hc, hd]
    obtain ⟨d', e1, e2, e3⟩ := runs_copyTree files hn d
    have ha : after env s force none d = some (Function.update d' versionFile (some (strip r))) := by
      rw [after, hse, runs_append, e1, runs_writeFile]
    refine ⟨by rw [hse], ?_, ?_, ?_⟩
    · rw [ha, localVersion, Function.update_self, Option.map_some, strip_idem]
    · intro _
      rw [ha]
      intro p hp
      rw [Function.update_of_ne, e2 p hp]
      intro e
      exact hf (List.mem_map.2 ⟨p, hp, e⟩)
    · intro d0 d1 f hd0 hd1 hf1 hf2
      rw [ha] at hd1
      rw [← Option.some.inj hd1, Function.update_of_ne hf2, e3 f hf1, hd0]
      rfl
  · have hse : session env s force d = ([], .loads) := by rw [session, if_neg hc]
    have ha : after env s force none d = d := by rw [after, hse]; rfl
    simp only [Bool.or_eq_true, not_or, Option.isNone_iff_eq_none] at hc
    have hl : localVersion d = some (strip r) := by
      have := hc.2
      rw [isStale, hrv] at this
      simp at this
      exact this.symm
    refine ⟨by rw [hse], by rw [ha]; exact hl, ?_, ?_⟩
    · rintro (h | h | h)
      · exact absurd h hc.1.1
      · exact absurd h hc.1.2
      · exact absurd hl h
    · intro d0 d1 f hd0 hd1 _ _
      rw [ha, hd0] at hd1
      rw [Option.some.inj hd1]

/-! ## Crashes -/

theorem after_inv {env : Env} {v : List Char} {files : List (String × List Char)} (hn : (files.map Prod.fst).Nodup) (hf : versionFile ∉ files.map Prod.fst) (s : Server)
    (hs : Publishes env v files s) (crash : Option Nat) (d : Disk) (hd : localVersion d = some v → Complete files d) :
    localVersion (after env s false crash d) = some v → Complete files (after env s false crash d) := by
  rcases session_cases env s false d with h | ⟨hcond, ws, hdl, hse⟩
  · have : after env s false crash d = d := by
      unfold after
      cases crash <;> simp [h, runs]
    rw [this]; exact hd
  · obtain ⟨v', sum, body, fs, e1, e2, e3, e4, e5, rfl⟩ := download_ok hdl
    have hfs : fs = files := hs.2 200 body fs e3 e5
    subst hfs
    have hv : v' = v := by
      rw [remoteVersion, Option.map_eq_some_iff] at e1
      obtain ⟨r, h1, h2⟩ := e1
      rw [← h2]; exact hs.1 r h1
    subst hv
    have hold : localVersion d ≠ some v' := by
      rcases hcond with h | h | h
      · simp at h
      · rw [h]; simp [localVersion]
      · rw [isStale, e1] at h
        simp at h
        exact fun e => h e.symm
    have key : ∃ k, after env s false crash d = runs ((copyTree fs ++ writeFile versionFile v').take k) d := by
      cases crash with
      | none => exact ⟨(copyTree fs ++ writeFile versionFile v').length, by rw [List.take_length, after, hse]⟩
      | some k => exact ⟨k, by rw [after, hse]⟩
    obtain ⟨k, hk⟩ := key
    rw [hk]
    rw [List.take_append]
    by_cases hlen : k ≤ (copyTree fs).length
    · -- the version file is as it was
      rw [show k - (copyTree fs).length = 0 by omega, List.take_zero, List.append_nil]
      intro hl
      exfalso
      cases k with
      | zero => exact hold hl
      | succ k =>
        rw [copyTree, List.take_succ_cons, runs_mkdir] at hl
        obtain ⟨d', f1, f2⟩ := runs_other versionFile ((fs.flatMap (fun p => writeFile p.1 p.2)).take k) (by
          intro w hw
          exact copyTree_file fs versionFile hf w (List.mem_cons_of_mem _ (List.mem_of_mem_take hw))) d.base
        rw [f1, localVersion, f2] at hl
        cases d with
        | none => simp [Disk.base] at hl
        | some d0 => exact hold hl
    · intro _
      rw [List.take_of_length_le (by omega), runs_append]
      obtain ⟨d', f1, f2, f3⟩ := runs_copyTree fs hn d
      rw [f1]
      have hother : ∀ p ∈ fs, ∃ d'', runs ((writeFile versionFile v').take (k - (copyTree fs).length)) (some d') = some d'' ∧ d'' p.1 = d' p.1 := by
        intro p hp
        refine runs_other p.1 _ ?_ d'
        intro w hw
        rw [writeFile_file versionFile v' w (List.mem_of_mem_take hw)]
        intro e
        exact hf (List.mem_map.2 ⟨p, hp, (Option.some.inj e).symm⟩)
      cases hr : runs ((writeFile versionFile v').take (k - (copyTree fs).length)) (some d') with
      | none =>
        obtain ⟨d'', g1, _⟩ := runs_other (versionFile ++ "x") ((writeFile versionFile v').take (k - (copyTree fs).length)) (by
          intro w hw
          rw [writeFile_file versionFile v' w (List.mem_of_mem_take hw)]
          decide) d'
        rw [hr] at g1; simp at g1
      | some d'' =>
        intro p hp
        obtain ⟨d3, g1, g2⟩ := hother p hp
        rw [hr] at g1
        rw [Option.some.inj g1, g2, f2 p hp]

/-- C92: let a server publish one release, whose archive has no version file. After any history of sessions without `force_download`, each with a crash at any write or without one, and with answers of the
server that fail in any way, starting without a directory: if the local version is that of the release, all its files are there. -/
theorem C92_history_partial (env : Env) (v : List Char) (files : List (String × List Char)) (hn : (files.map Prod.fst).Nodup) (hf : versionFile ∉ files.map Prod.fst)
    (h : List (Server × Bool × Option Nat)) (hs : ∀ x ∈ h, Publishes env v files x.1 ∧ x.2.1 = false) :
    localVersion (history env h none) = some v → Complete files (history env h none) := by
  have : ∀ (h : List (Server × Bool × Option Nat)) (d : Disk), (∀ x ∈ h, Publishes env v files x.1 ∧ x.2.1 = false) → (localVersion d = some v → Complete files d) →
      localVersion (history env h d) = some v → Complete files (history env h d) := by
    intro h
    induction h with
    | nil => intro d _ hd; exact hd
    | cons x h ih =>
      intro d hs hd
      have hx := hs x List.mem_cons_self
      rw [history, List.foldl_cons, hx.2]
      exact ih _ (fun y hy => hs y (List.mem_cons_of_mem _ hy)) (after_inv hn hf x.1 hx.1 x.2.2 d hd)
  exact this h none hs (by simp [localVersion])

/-- C92: so after any such history, the next session without a crash in which the server answers loads the complete release. -/
theorem C92_recovers (env : Env) (v : List Char) (files : List (String × List Char)) (hn : (files.map Prod.fst).Nodup) (hf : versionFile ∉ files.map Prod.fst)
    (h : List (Server × Bool × Option Nat)) (hs : ∀ x ∈ h, Publishes env v files x.1 ∧ x.2.1 = false) (s : Server) (hv : Serves env v files s) (force : Bool) :
    (session env s force (history env h none)).2 = .loads ∧ Complete files (after env s force none (history env h none)) := by
  obtain ⟨h1, h2, h3, _⟩ := C92_update env s force (history env h none) v files hv hn hf
  refine ⟨h1, ?_⟩
  by_cases hc : force = true ∨ history env h none = none ∨ localVersion (history env h none) ≠ some v
  · exact h3 hc
  · rw [not_or, not_or, not_not] at hc
    have hcomp := C92_history_partial env v files hn hf h hs hc.2.2
    have : after env s force none (history env h none) = history env h none := by
      obtain ⟨⟨r, hr, rfl⟩, _⟩ := hv
      have hforce : force = false := by simpa using hc.1
      subst hforce
      rw [after, C92_fresh env s _ hc.2.1 (.inr (by rw [remoteVersion, hr, hc.2.2]; rfl))]
      rfl
    rw [this]
    exact hcomp

/-! ## Examples and what does not hold -/

/-- Two releases, "r1" and "r2", each with a model file and a configuration. -/
def exEnv : Env where
  sha := _root_.id
  untar := fun b => if b = "r1".toList then some [("model", "11".toList), ("config", "1".toList)] else
    if b = "r2".toList then some [("model", "22".toList), ("config", "2".toList)] else none

def exServer (v body : String) : Server := ⟨some v.toList, some (body ++ "  model.tar.gz").toList, some (200, body.toList)⟩

example : Publishes exEnv "1.0".toList [("model", "11".toList), ("config", "1".toList)] (exServer "1.0\n" "r1") ∧
    Serves exEnv "1.0".toList [("model", "11".toList), ("config", "1".toList)] (exServer "1.0\n" "r1") := by
  refine ⟨⟨?_, ?_⟩, ⟨_, rfl, by decide⟩, _, _, rfl, rfl, by decide, by decide⟩
  · intro r hr
    rw [← Option.some.inj hr]
    decide
  · intro status body fs h1 h2
    have := (Prod.mk.inj (Option.some.inj h1)).2
    subst this
    have h3 : exEnv.untar "r1".toList = some [("model", "11".toList), ("config", "1".toList)] := by decide
    exact (Option.some.inj (h3.symm.trans h2)).symm

/-- The contents of a file. -/
def fileAt (d : Disk) (f : String) : Option (List Char) := d.bind (fun d => d f)

/-- C92, refuted without a server: after a crash during the first download, a session in which the server does not answer loads the incomplete model without a message. -/
theorem C92_refuted_offline : let d := after exEnv (exServer "1.0" "r1") false (some 3) none
    fileAt d "model" = some "1".toList ∧ fileAt d "config" = none ∧ session exEnv ⟨none, none, none⟩ false d = ([], .loads) := by
  refine ⟨by decide, by decide, C92_fresh _ _ _ (by decide) (.inl rfl)⟩

/-- C92, refuted for updates: after a crash during the update from 1.0 to 2.0, the directory has the version 1.0 and a file of 2.0; when the server goes back to 1.0 (or does not answer), it is loaded. -/
theorem C92_refuted_update : let d1 := after exEnv (exServer "1.0" "r1") false none none
    let d2 := after exEnv (exServer "2.0" "r2") false (some 4) d1
    localVersion d2 = some "1.0".toList ∧ fileAt d2 "model" = some "22".toList ∧ fileAt d2 "config" = some "1".toList ∧
      session exEnv (exServer "1.0" "r1") false d2 = ([], .loads) := by
  have h : localVersion (after exEnv (exServer "2.0" "r2") false (some 4) (after exEnv (exServer "1.0" "r1") false none none)) = some "1.0".toList := by decide
  refine ⟨h, by decide, by decide, C92_fresh _ _ _ (by decide) (.inr ?_)⟩
  rw [h]; decide

/-- C92, refuted with `force_download`: a crash leaves a broken file under the right version. -/
theorem C92_refuted_force : let d1 := after exEnv (exServer "1.0" "r1") false none none
    let d2 := after exEnv (exServer "1.0" "r1") true (some 2) d1
    fileAt d2 "model" = some [] ∧ localVersion d2 = some "1.0".toList ∧ session exEnv (exServer "1.0" "r1") false d2 = ([], .loads) := by
  have h : localVersion (after exEnv (exServer "1.0" "r1") true (some 2) (after exEnv (exServer "1.0" "r1") false none none)) = some "1.0".toList := by decide
  refine ⟨by decide, h, C92_fresh _ _ _ (by decide) (.inr ?_)⟩
  rw [h]; decide

/-- C92, refuted: although a complete older model is there, a connection that fails during the download of the archive ends in an exception; other failures of the download fall back to the model. -/
theorem C92_refuted_fallback : let d := after exEnv (exServer "1.0" "r1") false none none
    session exEnv ⟨some "2.0".toList, some "r2".toList, none⟩ false d = ([], .raises .requests) ∧
      session exEnv ⟨some "2.0".toList, some "r2".toList, some (404, [])⟩ false d = ([], .loads) := by
  have h : localVersion (after exEnv (exServer "1.0" "r1") false none none) = some "1.0".toList := by decide
  have h0 : (after exEnv (exServer "1.0" "r1") false none none).isSome = true := by decide
  generalize after exEnv (exServer "1.0" "r1") false none none = d at h h0
  constructor
  · have : isStale ⟨some "2.0".toList, some "r2".toList, none⟩ d = true := by
      rw [isStale, h]; decide
    rw [session, this, if_pos (by simp)]
    rfl
  · have : isStale ⟨some "2.0".toList, some "r2".toList, some (404, [])⟩ d = true := by
      rw [isStale, h]; decide
    rw [session, this, if_pos (by simp)]
    have hd : download exEnv ⟨some "2.0".toList, some "r2".toList, some (404, [])⟩ = .error .downloader := by rfl
    rw [hd]
    simp [h0, h]

/-- C92: failures of the server other than a failing connection for the archive are hidden where a local version is there: the session loads what is there. -/
theorem C92_falls_back (env : Env) (s : Server) (force : Bool) (d : Disk) (ha : s.archive ≠ none) (hl : (localVersion d).isSome) : (session env s force d).2 = .loads := by
  unfold session
  split
  · cases hd : download env s with
    | ok ws => rfl
    | error e =>
      cases e with
      | downloader =>
        have : d.isSome = true := by
          cases d with
          | none => simp [localVersion] at hl
          | some _ => rfl
        simp [this, hl]
      | requests =>
        exfalso
        unfold download at hd
        cases hv : remoteVersion s with
        | none => rw [hv] at hd; simp at hd
        | some v =>
          cases hs : s.checksum with
          | none => rw [hv, hs] at hd; simp at hd
          | some sum =>
            cases hx : s.archive with
            | none => exact ha hx
            | some sb =>
              obtain ⟨status, body⟩ := sb
              rw [hv, hs, hx] at hd
              simp only at hd
              split at hd
              · simp at hd
              · split at hd
                · simp at hd
                · cases hu : env.untar body with
                  | none => rw [hu] at hd; simp at hd
                  | some files => rw [hu] at hd; simp at hd
  · rfl

/-- C92: what loads is a directory. -/
theorem C92_loads_directory (env : Env) (s : Server) (force : Bool) (d : Disk) (h : (session env s force d).2 = .loads) : after env s force none d ≠ none := by
  have hrun : ∀ (ws : List Write) (d0 : String → Option (List Char)), ∃ d', runs ws (some d0) = some d' := by
    intro ws
    induction ws with
    | nil => intro d0; exact ⟨d0, rfl⟩
    | cons w ws ih =>
      intro d0
      rw [runs, List.foldl_cons]
      cases w <;> exact ih _
  rw [after]
  cases d with
  | some d0 =>
    obtain ⟨d', e⟩ := hrun (session env s force (some d0)).1 d0
    rw [e]; simp
  | none =>
    rcases session_cases env s force none with h1 | ⟨_, ws, h2, h3⟩
    · exfalso
      unfold session at h h1
      simp only [Option.isNone_none, Bool.or_true, Bool.true_or, if_true] at h h1
      cases hd : download env s with
      | ok ws =>
        rw [hd] at h1
        obtain ⟨v, sum, body, files, _, _, _, _, _, rfl⟩ := download_ok hd
        simp [copyTree] at h1
      | error e =>
        rw [hd] at h
        cases e <;> simp [localVersion] at h
    · obtain ⟨v, sum, body, files, _, _, _, _, _, rfl⟩ := download_ok h2
      rw [h3]
      obtain ⟨d', e⟩ := hrun (files.flatMap (fun p => writeFile p.1 p.2) ++ writeFile versionFile v) (Disk.base none)
      have : runs (copyTree files ++ writeFile versionFile v) none = some d' := by rw [copyTree, List.cons_append, runs_mkdir]; exact e
      rw [this]; simp

/-- C92: while the server tells its version, only a directory with a version is loaded: one that an interrupted first download left behind is not, even if the new download fails. -/
theorem C92_version (env : Env) (s : Server) (force : Bool) (d : Disk) (hr : remoteVersion s ≠ none) (h : (session env s force d).2 = .loads) :
    localVersion (after env s force none d) ≠ none := by
  have hrun : ∀ (ws : List Write) (d0 : String → Option (List Char)), ∃ d', runs ws (some d0) = some d' := by
    intro ws
    induction ws with
    | nil => intro d0; exact ⟨d0, rfl⟩
    | cons w ws ih =>
      intro d0
      rw [runs, List.foldl_cons]
      cases w <;> exact ih _
  obtain ⟨v, hv⟩ := Option.ne_none_iff_exists'.1 hr
  have hdl : ∀ ws, download env s = .ok ws → ∃ files, ws = copyTree files ++ writeFile versionFile v := by
    intro ws hw
    unfold download at hw
    rw [hv] at hw
    cases h1 : s.checksum with
    | none => rw [h1] at hw; simp at hw
    | some sum =>
      cases h2 : s.archive with
      | none => rw [h1, h2] at hw; simp at hw
      | some a =>
        rw [h1, h2] at hw
        simp only at hw
        split at hw
        · simp at hw
        · split at hw
          · simp at hw
          · cases h3 : env.untar a.2 with
            | none => rw [h3] at hw; simp at hw
            | some files => rw [h3] at hw; exact ⟨files, by simpa using hw.symm⟩
  rcases session_cases env s force d with h1 | ⟨_, ws, hw, h2⟩
  · have ha : after env s force none d = d := by rw [after, h1]; rfl
    rw [ha]
    intro hl
    have hst : isStale s d = true := by rw [isStale, hv, hl]; simp
    rw [session, hst] at h h1
    simp only [Bool.or_true, if_true] at h h1
    cases hd : download env s with
    | ok ws =>
      rw [hd] at h1
      obtain ⟨files, rfl⟩ := hdl ws hd
      simp [copyTree] at h1
    | error e =>
      rw [hd] at h
      cases e <;> simp [hl] at h
  · obtain ⟨files, rfl⟩ := hdl ws hw
    have hm : ∃ d', runs (copyTree files) d = some d' := by
      rw [copyTree, runs, List.foldl_cons]
      cases d <;> exact hrun _ _
    obtain ⟨d', hd'⟩ := hm
    rw [after, h2, runs_append, hd', runs_writeFile, localVersion, Function.update_self]
    simp

/-- The case meets the hypotheses. -/
example : remoteVersion (exServer "1.0" "r1") ≠ none ∧ (session exEnv (exServer "1.0" "r1") false none).2 = .loads := ⟨by decide, by decide⟩

end Store
end Lambeq
