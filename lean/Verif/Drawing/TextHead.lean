import Verif.Drawing.TextCells
import Mathlib.Data.List.TakeWhile

namespace Lambeq
namespace TextPrint
set_option linter.unusedSimpArgs false

/-! ## The header -/

/-- The words of a pregroup diagram with their types. -/
def wordsOf : List Box → List (List Char × Ty)
  | .word n c _ :: bs => (n.toList, c) :: wordsOf bs
  | _ => []

theorem header_eq (p : Printer) : ∀ (bs : List Box) (h : Header), header p h bs = (wordsOf bs).foldl (fun h w => h.add p w.1 w.2) h := by
  intro bs
  induction bs with
  | nil => intro h; rfl
  | cons b bs ih =>
    intro h
    cases b <;> first | rfl | exact ih _

/-- The character of a type string that its wire starts from. -/
def middle (t : List Char) : Char := t.getD ((t.length - 1) / 2) ' '

theorem columns_length (k : Nat) : ∀ (ts : List (List Char)) (last : Nat), (columns k last ts).length = ts.length := by
  intro ts
  induction ts with
  | nil => intro _; rfl
  | cons t ts ih => intro last; simp [columns, ih]

theorem join_length_cons (sep t : List Char) (ts : List (List Char)) : (join sep (t :: ts)).length = t.length + (if ts = [] then 0 else sep.length + (join sep ts).length) := by
  cases ts with
  | nil => simp [join]
  | cons u ts => simp [join]

theorem columns_bounds {sep : List Char} (hs : 1 ≤ sep.length) : ∀ (ts : List (List Char)) (last : Nat), (∀ t ∈ ts, 1 ≤ t.length) →
    (∀ x ∈ columns sep.length last ts, last ≤ x ∧ x < last + (join sep ts).length) ∧ (columns sep.length last ts).Pairwise (fun a b => a + 2 ≤ b) := by
  intro ts
  induction ts with
  | nil => intro last _; simp [columns]
  | cons t ts ih =>
    intro last h
    have ht := h t (by simp)
    obtain ⟨i1, i2⟩ := ih (last + (t.length + sep.length)) (fun u hu => h u (by simp [hu]))
    rw [join_length_cons]
    simp only [columns, List.mem_cons, List.pairwise_cons]
    refine ⟨?_, ?_, i2⟩
    · rintro x (rfl | hx)
      · omega
      · have := i1 x hx
        cases ts with
        | nil => simp [columns] at hx
        | cons u us => simp only [List.cons_ne_nil, if_false]; omega
    · intro x hx
      have := i1 x hx
      omega

theorem columns_chars {sep : List Char} : ∀ (ts : List (List Char)) (pre post : List Char), (∀ t ∈ ts, 1 ≤ t.length) →
    (columns sep.length pre.length ts).map (fun x => (pre ++ join sep ts ++ post).getD x ' ') = ts.map middle := by
  intro ts
  induction ts with
  | nil => intro pre post _; rfl
  | cons t ts ih =>
    intro pre post h
    have ht := h t (by simp)
    simp only [columns, List.map_cons]
    congr 1
    · cases ts with
      | nil =>
        simp only [join, getD_app, List.length_append]
        rw [if_pos (by omega), if_neg (by omega)]
        unfold middle
        congr 1; omega
      | cons u us =>
        simp only [join, getD_app, List.length_append]
        rw [if_pos (by omega), if_neg (by omega), if_pos (by omega), if_pos (by omega)]
        unfold middle
        congr 1; omega
    · cases ts with
      | nil => rfl
      | cons u us =>
        have := ih (pre ++ t ++ sep) post (fun v hv => h v (by simp [hv]))
        simp only [List.length_append, join, List.append_assoc] at this ⊢
        exact this

/-- How far `center` moves the types to the right of where their wires were computed. -/
def shift (w k : Nat) : Nat := if w % 2 = 1 ∧ k % 2 = 0 then 1 else 0

theorem center_split {s : List Char} {n : Nat} (h : s.length ≤ n) (c : Char) : ∃ b, center s n c = List.replicate ((n - s.length) / 2 + shift n s.length) c ++ s ++ List.replicate b c ∧
    (n - s.length) / 2 + shift n s.length + s.length + b = n := by
  unfold center shift
  refine ⟨n - s.length - ((n - s.length) / 2 + if (n - s.length) % 2 = 1 ∧ n % 2 = 1 then 1 else 0), ?_, ?_⟩
  · have : ((n - s.length) % 2 = 1 ∧ n % 2 = 1) ↔ (n % 2 = 1 ∧ s.length % 2 = 0) := by omega
    simp only [this]
  · split_ifs <;> omega

theorem center_length {s : List Char} {n : Nat} (h : s.length ≤ n) (c : Char) : (center s n c).length = n := by
  obtain ⟨b, e, k⟩ := center_split h c
  rw [e]; simp; omega

/-- Names of types are not empty. -/
def Named (ws : List (List Char × Ty)) : Prop := ∀ w ∈ ws, ∀ o ∈ w.2, 1 ≤ (obStr o).length

/-- For each wire, the shift of its word. -/
def shifts (p : Printer) (ws : List (List Char × Ty)) : List Nat := (ws.map (fun w => List.replicate w.2.length (shift (width p w.1 w.2) (join p.sep (w.2.map obStr)).length))).flatten

structure HeadOk (p : Printer) (g : Nat) (ws : List (List Char × Ty)) (h : Header) : Prop where
  len1 : h.lines.length = h.words.length
  len2 : h.types.length = h.words.length
  count : h.pos.length = (ws.map (fun w => w.2.length)).sum
  gap : h.pos.Pairwise (fun a b => a + g ≤ b)
  bound : ∀ x ∈ h.pos, x < h.types.length
  bound2 : ∀ e ∈ h.pos.zip (shifts p ws), e.1 + e.2 < h.types.length
  chars : (h.pos.zip (shifts p ws)).map (fun e => h.types.getD (e.1 + e.2) ' ') = ((ws.map (fun w => w.2.map obStr)).flatten).map middle

theorem shifts_length (p : Printer) (ws : List (List Char × Ty)) : (shifts p ws).length = (ws.map (fun w => w.2.length)).sum := by
  simp [shifts, List.length_flatten, Function.comp_def]

theorem sep_pos (p : Printer) : 1 ≤ p.sep.length := by
  unfold Printer.sep; split_ifs <;> simp

theorem columns_shift (k : Nat) : ∀ (ts : List (List Char)) (last s : Nat), (columns k last ts).map (· + s) = columns k (last + s) ts := by
  intro ts
  induction ts with
  | nil => intro _ _; rfl
  | cons t ts ih =>
    intro last s
    simp only [columns, List.map_cons, ih]
    congr 1
    · omega
    · congr 1; omega

theorem zip_replicate (xs : List Nat) (s : Nat) : xs.zip (List.replicate xs.length s) = xs.map (fun x => (x, s)) := by
  induction xs with
  | nil => rfl
  | cons x xs ih => simp [List.replicate_succ, ih]

theorem HeadOk.add {p : Printer} {g : Nat} {ws : List (List Char × Ty)} {h : Header} (ok : HeadOk p g ws h) (hg : g ≤ 2) (hg2 : g ≤ p.spacing + 1) (n : List Char) (ty : Ty) (hn : ∀ o ∈ ty, 1 ≤ (obStr o).length) :
    HeadOk p g (ws ++ [(n, ty)]) (h.add p n ty) := by
  -- the header after the spaces
  obtain ⟨q, hq, hqw, hql, hqt, hqp, hqx⟩ : ∃ q, h.space p = q ∧ q.lines.length = q.words.length ∧ q.types.length = q.words.length ∧ (∃ b, q.types = h.types ++ b) ∧ q.pos = h.pos ∧ ∀ x ∈ h.pos, x + g ≤ q.types.length := by
    refine ⟨_, rfl, ?_⟩
    unfold Header.space
    split_ifs with hw
    · refine ⟨ok.len1, ok.len2, ⟨[], by simp⟩, rfl, ?_⟩
      intro x hx
      have := ok.bound x hx
      rw [ok.len2, hw] at this
      simp at this
    · refine ⟨by simp [ok.len1], by simp [ok.len2], ⟨_, rfl⟩, rfl, ?_⟩
      intro x hx
      have := ok.bound x hx
      simp only [List.length_append, List.length_replicate]
      omega
  have hts : ∀ t ∈ ty.map obStr, 1 ≤ t.length := by
    intro t ht
    obtain ⟨o, ho, rfl⟩ := List.mem_map.1 ht
    exact hn o ho
  have hw1 : n.length ≤ width p n ty := Nat.le_max_left _ _
  have hw2 : (join p.sep (ty.map obStr)).length ≤ width p n ty := Nat.le_max_right _ _
  obtain ⟨b, hc, hb⟩ := center_split hw2 ' '
  obtain ⟨c1, c2⟩ := columns_bounds (sep_pos p) (ty.map obStr) (q.types.length + (width p n ty - (join p.sep (ty.map obStr)).length) / 2) hts
  obtain ⟨tb, htb⟩ := hqt
  have hle : h.types.length ≤ q.types.length := by rw [htb]; simp
  have hsh : shifts p (ws ++ [(n, ty)]) = shifts p ws ++ List.replicate (columns p.sep.length (q.types.length + (width p n ty - (join p.sep (ty.map obStr)).length) / 2) (ty.map obStr)).length (shift (width p n ty) (join p.sep (ty.map obStr)).length) := by
    simp [shifts, columns_length]
  have hzip : (h.add p n ty).pos.zip (shifts p (ws ++ [(n, ty)])) = h.pos.zip (shifts p ws) ++ (columns p.sep.length (q.types.length + (width p n ty - (join p.sep (ty.map obStr)).length) / 2) (ty.map obStr)).map (fun x => (x, shift (width p n ty) (join p.sep (ty.map obStr)).length)) := by
    rw [hsh, ← zip_replicate]
    unfold Header.add
    rw [hq]
    simp only [hqp]
    exact List.zip_append (by rw [shifts_length, ok.count])
  refine ⟨?_, ?_, ?_, ?_, ?_, ?_, ?_⟩
  · unfold Header.add
    rw [hq]
    simp only [List.length_append, List.length_replicate, center_length hw1]
    omega
  · unfold Header.add
    rw [hq]
    simp only [List.length_append, center_length hw1, center_length hw2]
    omega
  · unfold Header.add
    rw [hq]
    simp [hqp, ok.count, columns_length]
  · unfold Header.add
    rw [hq]
    simp only [hqp]
    rw [List.pairwise_append]
    refine ⟨ok.gap, c2.imp (fun h => by omega), ?_⟩
    intro x hx y hy
    have := c1 y hy
    have := hqx x hx
    omega
  · unfold Header.add
    rw [hq]
    simp only [hqp]
    intro x hx
    simp only [List.length_append, center_length hw2]
    rcases List.mem_append.1 hx with hx | hx
    · have := ok.bound x hx
      omega
    · have := c1 x hx
      omega
  · intro e he
    rw [hzip] at he
    have hl : (h.add p n ty).types.length = q.types.length + width p n ty := by
      unfold Header.add
      rw [hq]
      simp only [List.length_append, center_length hw2]
    rw [hl]
    rcases List.mem_append.1 he with he | he
    · have := ok.bound2 e he
      omega
    · obtain ⟨x, hx, rfl⟩ := List.mem_map.1 he
      have := c1 x hx
      simp only
      omega
  · rw [hzip]
    have htypes : (h.add p n ty).types = q.types ++ center (join p.sep (ty.map obStr)) (width p n ty) ' ' := by
      unfold Header.add
      rw [hq]
    rw [htypes, List.map_append, List.map_append, List.flatten_append, List.map_append]
    congr 1
    · rw [← ok.chars]
      apply List.map_congr_left
      intro e he
      have := ok.bound2 e he
      rw [htb, List.append_assoc, getD_app, if_pos this]
    · rw [List.map_map]
      have hm : (columns p.sep.length (q.types.length + (width p n ty - (join p.sep (ty.map obStr)).length) / 2) (ty.map obStr)).map ((fun e : Nat × Nat => (q.types ++ center (join p.sep (ty.map obStr)) (width p n ty) ' ').getD (e.1 + e.2) ' ') ∘ fun x => (x, shift (width p n ty) (join p.sep (ty.map obStr)).length)) =
          ((columns p.sep.length (q.types.length + (width p n ty - (join p.sep (ty.map obStr)).length) / 2) (ty.map obStr)).map (· + shift (width p n ty) (join p.sep (ty.map obStr)).length)).map (fun x => (q.types ++ center (join p.sep (ty.map obStr)) (width p n ty) ' ').getD x ' ') := by
        rw [List.map_map]; rfl
      rw [hm, columns_shift, hc]
      have hlen : q.types.length + (width p n ty - (join p.sep (ty.map obStr)).length) / 2 + shift (width p n ty) (join p.sep (ty.map obStr)).length =
          (q.types ++ List.replicate ((width p n ty - (join p.sep (ty.map obStr)).length) / 2 + shift (width p n ty) (join p.sep (ty.map obStr)).length) ' ').length := by simp; omega
      rw [hlen]
      have := columns_chars (sep := p.sep) (ty.map obStr) (q.types ++ List.replicate ((width p n ty - (join p.sep (ty.map obStr)).length) / 2 + shift (width p n ty) (join p.sep (ty.map obStr)).length) ' ') (List.replicate b ' ') hts
      simp only [List.append_assoc] at this ⊢
      rw [this]
      simp

theorem head_ok {p : Printer} {g : Nat} (hg : g ≤ 2) (hg2 : g ≤ p.spacing + 1) : ∀ (ws done : List (List Char × Ty)) (h : Header), HeadOk p g done h → Named ws →
    HeadOk p g (done ++ ws) (ws.foldl (fun h w => h.add p w.1 w.2) h) := by
  intro ws
  induction ws with
  | nil => intro done h ok _; simpa using ok
  | cons w ws ih =>
    intro done h ok hn
    have := ih (done ++ [w]) (h.add p w.1 w.2) (ok.add hg hg2 w.1 w.2 (hn w (by simp))) (fun v hv => hn v (by simp [hv]))
    simpa using this

theorem headOk_nil (p : Printer) (g : Nat) : HeadOk p g [] ⟨[], [], [], []⟩ := ⟨rfl, rfl, rfl, by simp, by simp, by simp, rfl⟩

/-! ## The lines of the header -/

theorem join_snoc (sep x : List Char) : ∀ xs, xs ≠ [] → join sep (xs ++ [x]) = join sep xs ++ sep ++ x := by
  intro xs
  induction xs with
  | nil => intro h; exact absurd rfl h
  | cons y ys ih =>
    intro _
    cases ys with
    | nil => simp [join]
    | cons z zs =>
      have := ih (by simp)
      simp only [List.cons_append, join] at this ⊢
      rw [this]; simp

theorem head_lines (p : Printer) : ∀ (ws done : List (List Char × Ty)) (h : Header), (∀ w ∈ done ++ ws, 1 ≤ w.1.length) →
    h.words = join (List.replicate p.spacing ' ') (done.map (fun w => center w.1 (width p w.1 w.2) ' ')) →
    h.lines = join (List.replicate p.spacing ' ') (done.map (fun w => List.replicate (width p w.1 w.2) p.chars.line)) →
    h.types = join (List.replicate p.spacing ' ') (done.map (fun w => center (join p.sep (w.2.map obStr)) (width p w.1 w.2) ' ')) →
    let k := ws.foldl (fun h w => h.add p w.1 w.2) h
    k.words = join (List.replicate p.spacing ' ') ((done ++ ws).map (fun w => center w.1 (width p w.1 w.2) ' ')) ∧
    k.lines = join (List.replicate p.spacing ' ') ((done ++ ws).map (fun w => List.replicate (width p w.1 w.2) p.chars.line)) ∧
    k.types = join (List.replicate p.spacing ' ') ((done ++ ws).map (fun w => center (join p.sep (w.2.map obStr)) (width p w.1 w.2) ' ')) := by
  intro ws
  induction ws with
  | nil => intro done h _ h1 h2 h3; simpa using ⟨h1, h2, h3⟩
  | cons w ws ih =>
    intro done h hn h1 h2 h3
    have e : done ++ w :: ws = (done ++ [w]) ++ ws := by simp
    rw [e] at hn ⊢
    refine ih (done ++ [w]) (h.add p w.1 w.2) hn ?_ ?_ ?_
    all_goals
      by_cases hd : done = []
      · subst hd
        have hw : h.words = [] := h1
        have hl : h.lines = [] := h2
        have ht : h.types = [] := h3
        simp [Header.add, Header.space, hw, hl, ht, join]
      · have hw : h.words ≠ [] := by
          rw [h1]
          intro hc
          obtain ⟨v, vs, rfl⟩ := List.exists_cons_of_ne_nil hd
          have hl := congrArg List.length hc
          rw [List.map_cons, join_length_cons, center_length (show v.1.length ≤ width p v.1 v.2 from Nat.le_max_left _ _)] at hl
          have hv := hn v (by simp)
          have : v.1.length ≤ width p v.1 v.2 := Nat.le_max_left _ _
          simp at hl
          omega
        simp only [Header.add, Header.space, hw, if_false, List.map_append, List.map_cons, List.map_nil]
        rw [join_snoc _ _ _ (by simpa using hd)]
        simp only [h1, h2, h3]

theorem rstrip_getD {s : List Char} {x : Nat} (h : (s.getD x ' ').isWhitespace = false ∧ s.getD x ' ' ≠ Char.ofNat 160) : (rstrip s).getD x ' ' = s.getD x ' ' := by
  obtain ⟨t, ht, ht2⟩ : ∃ t, s = rstrip s ++ t ∧ ∀ c ∈ t, (c.isWhitespace || c = Char.ofNat 160) = true := by
    refine ⟨(s.reverse.takeWhile (fun c => c.isWhitespace || c = Char.ofNat 160)).reverse, ?_, ?_⟩
    · unfold rstrip
      rw [← List.reverse_append, List.takeWhile_append_dropWhile, List.reverse_reverse]
    · intro c hc
      exact List.mem_takeWhile_imp (p := fun c => c.isWhitespace || decide (c = Char.ofNat 160)) (List.mem_reverse.1 hc)
  by_cases hx : x < (rstrip s).length
  · conv_rhs => rw [ht]
    rw [getD_app, if_pos hx]
  · exfalso
    rw [ht, getD_app, if_neg hx] at h
    by_cases hx2 : x - (rstrip s).length < t.length
    · rw [List.getD_eq_getElem _ _ hx2] at h
      have := ht2 _ (List.getElem_mem hx2)
      simp only [Bool.or_eq_true, decide_eq_true_eq] at this
      rcases this with hh | hh
      · rw [hh] at h; exact absurd h.1 (by simp)
      · exact h.2 hh
    · rw [getD_len (by omega)] at h
      exact absurd h.1 (by decide)

end TextPrint
end Lambeq
