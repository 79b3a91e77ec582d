import Verif.Grammar.FunctorDagger

/-!
# The functor cache: C20

`Functor.__call__` memoises every box and diagram it has mapped. The property a user relies on: answers
do not depend on the history of earlier calls.
-/

namespace Lambeq
set_option linter.unusedSimpArgs false
open Diagram

namespace Functor
variable (F : Functor)

/-- The user's `ar` returns something with the expected domain and codomain. -/
def ArTyped : Prop := ∀ b r, F.ar b = .ok r → r.dom = F.onTy b.dom ∧ r.cod = F.onTy b.cod

/-- Every stored answer is the answer of a fresh functor. -/
def Sound (c : Cache) : Prop := ∀ k v, c.get k = some v → F.fresh k = .ok v

theorem sound_nil : F.Sound [] := by intro k v h; simp [Cache.get] at h

theorem sound_cons {c : Cache} {k : Key} {v : GDiagram} (h : F.Sound c) (hk : F.fresh k = .ok v) :
    F.Sound ((k, v) :: c) := by
  intro k' v' h'
  simp only [Cache.get] at h'
  split at h'
  · rename_i e; subst e; injection h' with h'; subst h'; exact hk
  · exact h k' v' h'

theorem withCache_spec {k : Key} {dom cod : Ty} {body : Cache → Except PyErr GDiagram × Cache}
    {fb : Except PyErr GDiagram}
    (hbody : ∀ c, F.Sound c → (body c).1 = fb ∧ F.Sound (body c).2)
    (hfresh : F.fresh k = fb >>= F.check dom cod)
    (hty : ∀ r, fb = .ok r → F.check dom cod r = .ok r) (c : Cache) (hc : F.Sound c) :
    (F.withCache k dom cod body c).1 = F.fresh k ∧ F.Sound (F.withCache k dom cod body c).2 := by
  unfold withCache
  split
  · rename_i v hv; exact ⟨(hc k v hv).symm, hc⟩
  · obtain ⟨h1, h2⟩ := hbody c hc
    split
    · rename_i e c' hb
      rw [hb] at h1 h2
      refine ⟨?_, h2⟩
      rw [hfresh, ← h1]; rfl
    · rename_i r c' hb
      rw [hb] at h1 h2
      have h3 := hty r h1.symm
      have h4 : F.fresh k = .ok r := by rw [hfresh, ← h1, ok_bind, h3]
      exact ⟨by rw [h4, h3], F.sound_cons h2 h4⟩

theorem andPure_spec {r : Except PyErr GDiagram × Cache} {x : Except PyErr GDiagram}
    {f : GDiagram → Except PyErr GDiagram} (h : r.1 = x ∧ F.Sound r.2) :
    (andPure r f).1 = (x >>= f) ∧ F.Sound (andPure r f).2 := by
  obtain ⟨h1, h2⟩ := h
  rcases r with ⟨_ | d, c⟩
  · subst h1; exact ⟨rfl, h2⟩
  · subst h1; exact ⟨rfl, h2⟩

theorem check_of {dom cod : Ty} {r : GDiagram} (h : r.dom = F.onTy dom ∧ r.cod = F.onTy cod) :
    F.check dom cod r = .ok r := F.check_ok_iff.2 ⟨rfl, h.1, h.2⟩

theorem callBox0_spec (hT : F.ArTyped) {b : Box} (hb : F.fresh (.box b) = F.onBox0 b) (c : Cache) (hc : F.Sound c) :
    (F.callBox0 b c).1 = F.onBox0 b ∧ F.Sound (F.callBox0 b c).2 := by
  rw [← hb]
  exact F.withCache_spec (fb := F.ar b) (fun c hc => ⟨rfl, hc⟩) (by rw [hb]; rfl)
    (fun r hr => F.check_of (hT b r hr)) c hc

theorem mkCup_type {a b : Ty} {rev : Bool} {d : GDiagram} (h : GDiagram.mkCup a b rev = .ok d) :
    d.dom = a ++ b ∧ d.cod = [] := by
  cases rev with
  | true =>
    rcases GDiagram.mkCup_true_cases h with ⟨rfl, rfl, rfl⟩ | ⟨l, r, rfl, rfl, _, rfl⟩
    · exact ⟨rfl, rfl⟩
    · exact ⟨rfl, rfl⟩
  | false =>
    by_cases hab : a = Ty.l b
    · obtain ⟨d', h1, h2, h3, _⟩ := (GDiagram.C13_cups a b).2 hab
      rw [h1] at h; injection h with h; subst h; exact ⟨h2, h3⟩
    · rw [(GDiagram.C13_cups a b).1 hab] at h; simp at h

theorem mkCap_type {a b : Ty} {rev : Bool} {d : GDiagram} (h : GDiagram.mkCap a b rev = .ok d) :
    d.dom = [] ∧ d.cod = a ++ b := by
  cases rev with
  | true =>
    rcases GDiagram.mkCap_true_cases h with ⟨rfl, rfl, rfl⟩ | ⟨l, r, rfl, rfl, _, rfl⟩
    · exact ⟨rfl, rfl⟩
    · exact ⟨rfl, rfl⟩
  | false =>
    by_cases hab : a = Ty.r b
    · obtain ⟨d', h1, h2, h3, _⟩ := (GDiagram.C13_caps a b).2 hab
      rw [h1] at h; injection h with h; subst h; exact ⟨h2, h3⟩
    · rw [(GDiagram.C13_caps a b).1 hab] at h; simp at h

theorem mkSwap_type {a b : Ty} {d : GDiagram} (h : GDiagram.mkSwap a b = .ok d) :
    d.dom = a ++ b ∧ d.cod = b ++ a := by
  obtain ⟨d', h1, h2, h3, _⟩ := GDiagram.C12_swap a b
  rw [h1] at h; injection h with h; subst h; exact ⟨h2, h3⟩

theorem onTy_pair (l r : Ob) : F.onTy [l, r] = F.onTy [l] ++ F.onTy [r] := F.onTy_append [l] [r]

theorem callBox_spec (hF : F.ArWF) (hT : F.ArTyped) (b : Box) (c : Cache) (hc : F.Sound c) :
    (F.callBox b c).1 = F.onBox b ∧ F.Sound (F.callBox b c).2 := by
  induction b generalizing c with
  | gen n d cd z =>
    refine F.withCache_spec (k := .box (.gen n d cd z)) (fb := if z ≠ 0 then do
          let r0 ← F.onBox0 (.gen n (Ty.rotate (-z) d) (Ty.rotate (-z) cd) (z + -z))
          GDiagram.rotatePy z r0
        else F.ar (.gen n d cd z)) ?_ rfl ?_ c hc
    · intro c hc
      split
      · exact F.andPure_spec (F.callBox0_spec hT (by
          simp only [fresh, show z + -z = 0 by omega]
          rfl) c hc)
      · exact ⟨rfl, hc⟩
    · intro r hr
      split at hr
      · rw [bind_ok_iff] at hr
        obtain ⟨r0, h1, h2⟩ := hr
        obtain ⟨e1, e2, e3⟩ := F.onBox0_ok h1
        obtain ⟨w, v⟩ := hF _ _ e1 trivial
        rw [rotatePy_ok w v] at h2
        injection h2 with h2; subst h2
        refine F.check_of ⟨?_, ?_⟩
        · simp only [GDiagram.rotate, e2, Box.dom]
          rw [F.onTy_rotate, Ty.rotate_rotate, show -z + z = 0 by omega, Ty.rotate_zero]
        · simp only [GDiagram.rotate, e3, Box.cod]
          rw [F.onTy_rotate, Ty.rotate_rotate, show -z + z = 0 by omega, Ty.rotate_zero]
      · exact F.check_of (hT _ r hr)
  | word n cd z =>
    refine F.withCache_spec (k := .box (.word n cd z)) (fb := if z ≠ 0 then do
          let r0 ← F.onBox0 (.word n (Ty.rotate (-z) cd) (z + -z))
          GDiagram.rotatePy z r0
        else F.ar (.word n cd z)) ?_ rfl ?_ c hc
    · intro c hc
      split
      · exact F.andPure_spec (F.callBox0_spec hT (by
          simp only [fresh, show z + -z = 0 by omega]
          rfl) c hc)
      · exact ⟨rfl, hc⟩
    · intro r hr
      split at hr
      · rw [bind_ok_iff] at hr
        obtain ⟨r0, h1, h2⟩ := hr
        obtain ⟨e1, e2, e3⟩ := F.onBox0_ok h1
        obtain ⟨w, v⟩ := hF _ _ e1 trivial
        rw [rotatePy_ok w v] at h2
        injection h2 with h2; subst h2
        refine F.check_of ⟨?_, ?_⟩
        · simp [GDiagram.rotate, e2, Box.dom, onTy]
        · simp only [GDiagram.rotate, e3, Box.cod]
          rw [F.onTy_rotate, Ty.rotate_rotate, show -z + z = 0 by omega, Ty.rotate_zero]
      · exact F.check_of (hT _ r hr)
  | cup l r rev =>
    refine F.withCache_spec (k := .box (.cup l r rev)) (fb := GDiagram.mkCup (F.onTy [l]) (F.onTy [r]) rev)
      (fun c hc => ⟨rfl, hc⟩) rfl ?_ c hc
    intro d hd
    have := mkCup_type hd
    exact F.check_of ⟨by rw [this.1, F.onTy_pair], this.2⟩
  | cap l r rev =>
    refine F.withCache_spec (k := .box (.cap l r rev)) (fb := GDiagram.mkCap (F.onTy [l]) (F.onTy [r]) rev)
      (fun c hc => ⟨rfl, hc⟩) rfl ?_ c hc
    intro d hd
    have := mkCap_type hd
    exact F.check_of ⟨this.1, by rw [this.2, F.onTy_pair]⟩
  | swap l r =>
    refine F.withCache_spec (k := .box (.swap l r)) (fb := GDiagram.mkSwap (F.onTy [l]) (F.onTy [r]))
      (fun c hc => ⟨rfl, hc⟩) rfl ?_ c hc
    intro d hd
    have := mkSwap_type hd
    exact F.check_of ⟨by rw [this.1, F.onTy_pair], by rw [this.2, F.onTy_pair]⟩
  | spider t n m =>
    refine F.withCache_spec (k := .box (.spider t n m)) (fb := GDiagram.mkSpider (F.onTy [t]) n m)
      (fun c hc => ⟨rfl, hc⟩) rfl ?_ c hc
    intro d hd
    obtain ⟨d', P, S, Q, h1, h2, h3, h4, _⟩ := GDiagram.C14_spider (F.onTy [t]) n m
    have h1' : GDiagram.mkSpider (F.onTy [t]) n m = .ok d := hd
    rw [h1] at h1'; injection h1' with h1'; subst h1'
    refine F.check_of ⟨?_, ?_⟩
    · rw [h3]; simp [onTy, Ty.rep]
    · rw [h4]; simp [onTy, Ty.rep]
  | daggered b ih =>
    refine F.withCache_spec (k := .box (.daggered b)) (fb := F.onBox b >>= GDiagram.daggerPy)
      (fun c hc => F.andPure_spec (ih c hc)) ?_ ?_ c hc
    · simp only [fresh, onBox]
      cases F.onBox b <;> rfl
    · intro r hr
      rw [bind_ok_iff] at hr
      obtain ⟨r0, h1, h2⟩ := hr
      obtain ⟨w, v⟩ := F.onBox_wf hF h1
      obtain ⟨t1, t2⟩ := F.onBox_type h1
      rw [(GDiagram.daggerPy_ok w v).1] at h2
      injection h2 with h2; subst h2
      have := daggerWith_dom_cod Box.dagger r0 w
      exact F.check_of ⟨by rw [← t2]; exact this.1, by rw [← t1]; exact this.2.1⟩

theorem callId_spec (t : Ty) (c : Cache) (hc : F.Sound c) :
    (F.callId t c).1 = .ok (Diagram.id (F.onTy t)) ∧ F.Sound (F.callId t c).2 := by
  have h : F.fresh (.diag (Diagram.id t)) = .ok (Diagram.id (F.onTy t)) :=
    (F.C18_functorial (Diagram.id t) (Diagram.id t) rfl rfl t).1
  rw [← h]
  exact F.withCache_spec (fb := .ok (Diagram.id (F.onTy t))) (fun c hc => ⟨rfl, hc⟩) rfl
    (fun r hr => by injection hr with hr; subst hr; exact F.check_of ⟨rfl, rfl⟩) c hc

theorem callLayers_spec (hF : F.ArWF) (hT : F.ArTyped) (ls : List GLayer) (acc : GDiagram) (c : Cache)
    (hc : F.Sound c) :
    (F.callLayers ls acc c).1 = ls.foldlM F.layerStep acc ∧ F.Sound (F.callLayers ls acc c).2 := by
  induction ls generalizing acc c with
  | nil => exact ⟨rfl, hc⟩
  | cons l ls ih =>
    simp only [callLayers, List.foldlM_cons, layerStep]
    have h1 := F.callId_spec l.left c hc
    rcases hh1 : F.callId l.left c with ⟨x, c1⟩
    rw [hh1] at h1
    obtain ⟨rfl, s1⟩ := h1
    have h2 := F.callBox_spec hF hT l.box c1 s1
    simp only
    rcases hh2 : F.callBox l.box c1 with ⟨x, c2⟩
    rw [hh2] at h2
    obtain ⟨h2, s2⟩ := h2
    simp only at h2 s2
    cases x with
    | error e => simp only; rw [← h2]; exact ⟨rfl, s2⟩
    | ok db =>
      rw [← h2]
      simp only [ok_bind]
      have h3 := F.callId_spec l.right c2 s2
      rcases hh3 : F.callId l.right c2 with ⟨x, c3⟩
      rw [hh3] at h3
      obtain ⟨rfl, s3⟩ := h3
      simp only
      cases hx : andThen acc (tensor (tensor (Diagram.id (F.onTy l.left)) db) (Diagram.id (F.onTy l.right))) with
      | error e => exact ⟨rfl, s3⟩
      | ok acc' => exact ih acc' c3 s3

theorem callDiagram_spec (hF : F.ArWF) (hT : F.ArTyped) (d : GDiagram) (hd : d.WT) (c : Cache) (hc : F.Sound c) :
    (F.callDiagram d c).1 = F.onDiagram d ∧ F.Sound (F.callDiagram d c).2 := by
  refine F.withCache_spec (k := .diag d) (fb := if d.layers.isEmpty then .ok (Diagram.id (F.onTy d.dom))
    else d.layers.foldlM F.layerStep (Diagram.id (F.onTy d.dom))) ?_ rfl ?_ c hc
  · intro c hc
    split
    · exact ⟨rfl, hc⟩
    · have h1 := F.callId_spec d.dom c hc
      rcases hh1 : F.callId d.dom c with ⟨x, c1⟩
      rw [hh1] at h1
      obtain ⟨rfl, s1⟩ := h1
      exact F.callLayers_spec hF hT d.layers _ c1 s1
  · intro r hr
    split at hr
    · rename_i he
      injection hr with hr; subst hr
      have : d.layers = [] := by simpa using he
      have hd' : d.dom = d.cod := by have := hd; unfold WT at this; rw [‹d.layers = []›] at this; exact this
      exact F.check_of ⟨rfl, by rw [← hd']; rfl⟩
    · rw [F.fold_eq hd _ rfl] at hr
      cases ho : F.layersImage d.layers with
      | error e => rw [ho] at hr; simp [Except.map] at hr
      | ok out =>
        rw [ho] at hr
        have hr : (⟨F.onTy d.dom, F.onTy d.cod, [] ++ out⟩ : GDiagram) = r := by
          simpa [Except.map, Diagram.id] using hr
        subst hr
        exact F.check_of ⟨rfl, rfl⟩

/-- **C20.** If the user's `ar` respects types, the answers (results or exceptions) of one functor object
to any sequence of calls on boxes and well-typed diagrams are the answers a fresh functor gives to each
call on its own. -/
theorem C20_cache_transparent_partial (hF : F.ArWF) (hT : F.ArTyped) (calls : List Key)
    (hd : ∀ d, Key.diag d ∈ calls → d.WT) :
    F.history calls [] = calls.map F.fresh := by
  suffices h : ∀ c, F.Sound c → F.history calls c = calls.map F.fresh from h [] F.sound_nil
  induction calls with
  | nil => intro c _; rfl
  | cons k ks ih =>
    intro c hc
    have hk : (F.call k c).1 = F.fresh k ∧ F.Sound (F.call k c).2 := by
      cases k with
      | box b => exact F.callBox_spec hF hT b c hc
      | diag d => exact F.callDiagram_spec hF hT d (hd d (by simp)) c hc
    simp only [history, List.map_cons, hk.1]
    rw [ih (fun d hd' => hd d (by simp [hd'])) _ hk.2]

/-- A user's `ar` that gets the type of a word wrong. -/
def illTyped : Functor := ⟨fun n => [⟨n, 0⟩], fun _ => .ok (ofBox (.word "w" [⟨"s", 0⟩] 0))⟩

/-- **C20, refuted part.** For an ill-typed `ar` the first call raises `TypeError` as documented, and the
same call repeated returns the ill-typed result: the value is stored before it is checked. -/
theorem C20_failed_check_leaks_refuted :
    illTyped.history [.box (.word "w" [⟨"n", 0⟩] 0), .box (.word "w" [⟨"n", 0⟩] 0)] []
      = [.error .typeError, .ok (ofBox (.word "w" [⟨"s", 0⟩] 0))] := by
  rfl

/-- A priming functor: satisfies all hypotheses used in C17-C20, and maps a word, its adjoint and its
dagger. -/
def priming : Functor := ⟨fun n => [⟨n ++ "'", 0⟩], fun b => match b with
  | .word n c 0 => .ok (ofBox (.word (n ++ "'") (c.map (fun o => ⟨o.name ++ "'", o.z⟩)) 0))
  | _ => .error .keyError⟩

theorem priming_onTy (c : Ty) : priming.onTy c = c.map (fun o => ⟨o.name ++ "'", o.z⟩) := by
  induction c with
  | nil => rfl
  | cons o c ih =>
    rw [onTy_cons, ih, obAtom_eq]
    simp [priming, rot_single, Ty.rotOb]

theorem priming_ok : priming.ArWF ∧ priming.ArTyped ∧ priming.ArSimple ∧ priming.ObAtomic := by
  have key : ∀ b r, priming.ar b = .ok r → ∃ n c, b = .word n c 0 ∧
      r = ofBox (.word (n ++ "'") (c.map (fun o => ⟨o.name ++ "'", o.z⟩)) 0) := by
    intro b r h
    simp only [priming] at h
    split at h
    · injection h with h; exact ⟨_, _, rfl, h.symm⟩
    · simp at h
  refine ⟨?_, ?_, ?_, ?_⟩
  · intro b r h _
    obtain ⟨n, c, rfl, rfl⟩ := key b r h
    refine ⟨WT.ofBox _, ?_⟩
    intro l hl
    simp [ofBox] at hl
    subst hl; trivial
  · intro b r h
    obtain ⟨n, c, rfl, rfl⟩ := key b r h
    exact ⟨rfl, (priming_onTy c).symm⟩
  · intro b r h
    obtain ⟨n, c, rfl, rfl⟩ := key b r h
    intro l hl
    simp [ofBox] at hl
    subst hl; trivial
  · intro n; simp [priming]

/-- Non-vacuity: a history in which sub-results are served from the cache. -/
example : (priming.history [.box (.word "w" [⟨"n", 0⟩] 0), .diag (ofBox (.word "w" [⟨"n", 0⟩] 0)),
    .box (.daggered (.word "w" [⟨"n", 1⟩] 1)), .diag snakeExample] []).length = 4 := rfl

/-- Non-vacuity for C19: a diagram with a dagger, a word, a cup and a cap, on which `priming` is defined. -/
example : ∃ r, priming.onDiagram ⟨[⟨"n", 0⟩], [⟨"n", 0⟩],
    [⟨[⟨"n", 0⟩], .cap ⟨"n", 1⟩ ⟨"n", 0⟩ false, []⟩, ⟨[], .cup ⟨"n", 0⟩ ⟨"n", 1⟩ false, [⟨"n", 0⟩]⟩,
     ⟨[], .daggered (.word "w" [⟨"n", 0⟩] 0), []⟩, ⟨[], .word "w" [⟨"n", 0⟩] 0, []⟩]⟩ = .ok r ∧ r.WT := by
  refine ⟨_, rfl, by decide⟩

end Functor
end Lambeq
