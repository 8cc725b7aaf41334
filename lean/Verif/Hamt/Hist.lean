import Verif.Hamt.SimNode
import Verif.Spec.Hamt

/-!
# Histories of calls keep a shard representing a map

The definitions in this file belong to proofs; they model no code.
-/

namespace Unixfs.Hamt

variable {H : Hash} {lg : Nat}

mutual
theorem RepS.mono {size : Nat} {A B : Node → Prop} (h : ∀ x, A x → B x) : ∀ (s : Shard) (t : Trie), RepS size A s t → RepS size B s t
  | s, .leaf k v, hr => by rw [repS_leaf] at hr ⊢; exact hr
  | .mk a b slots c d e, .node b' cs, hr => by
    rw [repS_node] at hr ⊢
    obtain ⟨h1, h2, h3, h4, h5, h6⟩ := hr
    exact ⟨h1, h2, h3, h4, h5, RepL.mono h slots cs h6⟩
theorem RepL.mono {size : Nat} {A B : Node → Prop} (h : ∀ x, A x → B x) : ∀ (ss : List Slot) (cs : List Kid), RepL size A ss cs → RepL size B ss cs
  | [], [], _ => by simp [RepL]
  | [], _ :: _, hr => by rw [repL_iff] at hr; cases hr
  | _ :: _, [], hr => by rw [repL_iff] at hr; cases hr
  | .child s :: ss, .mk i t :: cs, hr => by
    simp only [RepL] at hr ⊢
    exact ⟨RepS.mono h s t hr.1, RepL.mono h ss cs hr.2⟩
  | .link l :: ss, .mk i t :: cs, hr => by
    simp only [RepL] at hr ⊢
    exact ⟨⟨hr.1.1, fun x hx => (hr.1.2 x hx).mono h⟩, RepL.mono h ss cs hr.2⟩
end

/-- All names. -/
def anyKey : Bytes → Prop := fun _ => True

/-- The children of a trie that hold the map `M`. -/
structure Holds (H : Hash) (lg : Nat) (cs : List Kid) (M : NMap) : Prop where
  wf : WF (hix H lg) (2 ^ lg) (levels lg) 0 anyKey cs
  map : ∀ k, M k = tfind (hix H lg) (levels lg) 0 cs k

/-- Invariant of a history: the shard represents a trie that holds the map, and everything unloaded
is in the store. -/
structure Inv (H : Hash) (lg : Nat) (b : Builder) (cs : List Kid) (c : Cfg) (M : NMap) : Prop where
  rep : RepS (2 ^ lg) (· ∈ c.st) c.shard (.node b cs)
  holds : Holds H lg cs M

/-! ### Digits -/

theorem digits_ext (B : Nat) : ∀ (n x y : Nat), 0 < B → x < B ^ n → y < B ^ n → (∀ d < n, x / B ^ d % B = y / B ^ d % B) → x = y := by
  intro n
  induction n with
  | zero => intro x y _ hx hy _; simp at hx hy; omega
  | succ n ih =>
    intro x y hB hx hy h
    have h0 := h 0 (by omega)
    simp only [pow_zero, Nat.div_one] at h0
    have h1 : x / B = y / B := by
      apply ih _ _ hB (Nat.div_lt_of_lt_mul (by rw [pow_succ, Nat.mul_comm] at hx; exact hx)) (Nat.div_lt_of_lt_mul (by rw [pow_succ, Nat.mul_comm] at hy; exact hy))
      intro d hd
      have := h (d + 1) (by omega)
      rw [pow_succ, Nat.mul_comm, ← Nat.div_div_eq_div_mul, ← Nat.div_div_eq_div_mul] at this
      exact this
    rw [← Nat.div_add_mod x B, ← Nat.div_add_mod y B, h0, h1]

theorem hix_eq (hp : HP H lg) (k : Bytes) {d : Nat} (hd : d < levels lg) :
    hix H lg k d = beNat (H k) / 2 ^ (64 % lg) / (2 ^ lg) ^ (levels lg - 1 - d) % 2 ^ lg := by
  have hlo := hp.lo
  have h1 : 64 - d * lg - lg = 64 % lg + lg * (levels lg - 1 - d) := by
    have h2 := Nat.div_add_mod 64 lg
    obtain ⟨m, hm⟩ : ∃ m, levels lg = d + 1 + m := ⟨levels lg - (d + 1), by omega⟩
    have hm' : 64 / lg = d + 1 + m := hm
    rw [hm'] at h2
    have h3 : lg * (d + 1 + m) = d * lg + lg + lg * m := by ring
    rw [hm, show d + 1 + m - 1 - d = m by omega]
    omega
  rw [hix, h1, pow_add, pow_mul, Nat.div_div_eq_div_mul]

theorem collide_iff (hp : HP H lg) (k k' : Bytes) : (∀ d < levels lg, hix H lg k d = hix H lg k' d) ↔ Collide H lg k k' := by
  constructor
  · intro h
    have hlt : ∀ k, beNat (H k) / 2 ^ (64 % lg) < (2 ^ lg) ^ levels lg := by
      intro k
      apply Nat.div_lt_of_lt_mul
      rw [← pow_mul, ← pow_add]
      have h1 := beNat_lt (H k)
      rw [hp.hlen] at h1
      have h2 : 64 % lg + lg * levels lg = 64 := by rw [levels]; exact Nat.mod_add_div 64 lg
      rw [h2]
      calc _ < _ := h1
        _ = 2 ^ 64 := by norm_num
    refine digits_ext (2 ^ lg) (levels lg) _ _ (by positivity) (hlt k) (hlt k') ?_
    intro d hd
    have h1 := h (levels lg - 1 - d) (by omega)
    rw [hix_eq hp k (by omega), hix_eq hp k' (by omega), show levels lg - 1 - (levels lg - 1 - d) = d by omega] at h1
    exact h1
  · intro h d hd
    rw [hix_eq hp k hd, hix_eq hp k' hd]
    rw [Collide] at h
    rw [h]

/-! ### Steps -/

theorem fuel_ok (hp : HP H lg) (k : Bytes) : levels lg < Shard.fuel H k := by
  rw [Shard.fuel, hp.hlen, levels]
  have := Nat.div_le_self 64 lg
  omega

theorem FetchFail.failed {A : Node → Prop} {net : Net} {t t' : Nat} (h : FetchFail A net t t') : FetchFailed net t t' := by
  obtain ⟨u, x, h1, h2, h3, _⟩ := h; exact ⟨u, x, h1, h2, h3⟩

theorem root_name (hp : HP H lg) {A : Node → Prop} {s : Shard} {b : Builder} {cs : List Kid} (hr : RepS (2 ^ lg) A s (.node b cs)) (key : Bytes) :
    NameOk (2 ^ lg) key (linkNamePrefix s.size 0 ++ key) :=
  ⟨by simp, by rw [List.length_append, (repS_node.mp hr).1, prefix_length hp.valid (by positivity)]⟩

/-- `swapValue` at the root of a represented shard. -/
theorem swap_root (hp : HP H lg) (net : Net) {A : Node → Prop} {s : Shard} {b : Builder} {cs : List Kid} {M : NMap} (hr : RepS (2 ^ lg) A s (.node b cs))
    (hh : Holds H lg cs M) (key : Bytes) (hk : key ≠ []) (value : Option Link)
    (hvn : ∀ l, value = some l → NameOk (2 ^ lg) key l.name) (t : Nat) {r : Except Err (Option Link)} {s' : Shard} {t' : Nat}
    (he : Shard.swapValue H net (Shard.fuel H key) s 0 key value t = (r, s', t')) :
    (∃ lo cs', r = .ok lo ∧ lo.map linkVal = M key ∧ (value = none → M key ≠ none) ∧ Holds H lg cs' (M.upd key (value.map linkVal)) ∧
        RepS (2 ^ lg) A s' (.node b cs') ∧ tswap (hix H lg) (levels lg) 0 b cs key (value.map linkVal) = .ok (M key, cs') ∧
        ∀ l, lo = some l → NameOk (2 ^ lg) key l.name) ∨
    (RepS (2 ^ lg) A s' (.node b cs) ∧
      ((r = .error .tooDeep ∧ M key = none ∧ value ≠ none ∧ ∃ k', M k' ≠ none ∧ k' ≠ key ∧ Collide H lg key k') ∨
       (r = .error .notExist ∧ M key = none ∧ value = none) ∨
       (r = .error .notFound ∧ FetchFail A net t t'))) := by
  have h1 := swap_sim hp net (levels lg) 0 anyKey b cs s key value t (Shard.fuel H key) (by omega) (.inr hh.wf) trivial hk hvn hr (fuel_ok hp key)
  rw [Nat.zero_mul, he] at h1
  have h2 := tswap_spec hix_lt (levels lg) 0 anyKey b cs key (value.map lval) hh.wf trivial hk
  generalize hT : tswap (hix H lg) (levels lg) 0 b cs key (value.map lval) = T at h1 h2
  cases h1 with
  | ok hlo hln hr' ht =>
    rename_i old cs' lo
    obtain ⟨hw', hso⟩ := h2
    have hold : lo.map linkVal = M key := by rw [hh.map, ← hso.old_eq]; exact hlo
    left
    refine ⟨lo, cs', rfl, hold, ?_, ⟨hw', ?_⟩, hr', ?_, hln⟩
    · intro hv
      rw [← hold]
      have := hso.removed (by rw [hv]; rfl)
      rwa [← hlo] at this
    · intro k
      rw [NMap.upd, hso.new_eq k, hh.map]
      rfl
    · rw [hh.map, ← hso.old_eq]; exact hT
  | err hr' ht =>
    rename_i e
    right
    refine ⟨hr', ?_⟩
    obtain ⟨hn, h3⟩ := h2
    rw [← hh.map] at hn
    rcases h3 with ⟨rfl, hv, k', hne, hk', hc⟩ | ⟨rfl, hv⟩
    · left
      refine ⟨rfl, hn, by rintro rfl; exact hv rfl, k', by rw [hh.map]; exact hk', hne, ?_⟩
      rw [← collide_iff hp]
      intro d hd
      exact (hc d (by omega) (by omega)).symm
    · right; left
      refine ⟨rfl, hn, ?_⟩
      cases value with
      | none => rfl
      | some v => simp at hv
  | net hr' hf => right; exact ⟨hr', .inr (.inr ⟨rfl, hf⟩)⟩

theorem entries_lists {cs : List Kid} {M : NMap} (h : Holds H lg cs M) : Lists M ((entriesL cs).map elink) := by
  constructor
  · rw [List.map_map]
    exact entries_nodup (levels lg) 0 anyKey cs h.wf
  · intro k v
    rw [h.map, ← entries_find (levels lg) 0 anyKey cs h.wf, List.mem_map]
    constructor
    · intro hm; exact ⟨(k, v), hm, rfl⟩
    · rintro ⟨⟨k', v'⟩, hm, he⟩
      simp only [elink, Link.mk.injEq] at he
      obtain ⟨rfl, h1, h2⟩ := he
      have : v' = v := Prod.ext h1 h2
      rw [← this]; exact hm

/-- Which trie a call leaves behind. -/
inductive TStep (H : Hash) (lg : Nat) (b : Builder) (cs : List Kid) : Builder → List Kid → Op → Prop
  | same (op : Op) : TStep H lg b cs b cs op
  | swap {op : Op} {key : Bytes} {value old : Option Val} {cs' : List Kid} (ht : op.target = some key) (hk : key ≠ [])
      (h : tswap (hix H lg) (levels lg) 0 b cs key value = .ok (old, cs')) : TStep H lg b cs b cs' op
  | build (bd : Option Builder) : TStep H lg b cs (pbBuilder bd) cs (.setCidBuilder bd)

theorem linkVal_rename (l : Link) (n : Bytes) : linkVal (Link.rename l n) = linkVal l := rfl

/-- One call on a represented shard. -/
theorem exec_spec (hp : HP H lg) (net : Net) (ref : Nat → Bool) {b : Builder} {cs : List Kid} {c : Cfg} {M : NMap} (hi : Inv H lg b cs c M)
    (op : Op) (hop : op.target ≠ some []) :
    ∃ b' cs' M', Inv H lg b' cs' (exec H net ref op c).2 M' ∧ TStep H lg b cs b' cs' op ∧ (∃ ext, (exec H net ref op c).2.st = ext ++ c.st) ∧
      SpecStep (Collide H lg) (FetchFailed net c.t (exec H net ref op c).2.t) (AddRefused ref c.st.length (exec H net ref op c).2.st.length) M op
        (exec H net ref op c).1 M' := by
  obtain ⟨s, t, st⟩ := c
  obtain ⟨hr, hh⟩ := hi
  simp only at hr
  have hswap : ∀ (name : Bytes) (nd : Node), name ≠ [] → ∀ (out : Except Err (Option Link) × Shard × Nat × List Node),
      s.swap H net ref name nd t st = out →
      (∃ lo cs', out.1 = .ok lo ∧ lo.map linkVal = M name ∧ Inv H lg b cs' ⟨out.2.1, out.2.2.1, out.2.2.2⟩ (M.upd name (some (nd.size, nd))) ∧
          tswap (hix H lg) (levels lg) 0 b cs name (some (nd.size, nd)) = .ok (M name, cs') ∧ out.2.2.2 = nd :: st) ∨
      (Inv H lg b cs ⟨out.2.1, out.2.2.1, out.2.2.2⟩ M ∧ (∃ ext, out.2.2.2 = ext ++ st) ∧ ∃ e, out.1 = .error e ∧
        SetStep (Collide H lg) (FetchFailed net t out.2.2.1) (AddRefused ref st.length out.2.2.2.length) M name (nd.size, nd) .done (.fail e) M ∧
        SetStep (Collide H lg) (FetchFailed net t out.2.2.1) (AddRefused ref st.length out.2.2.2.length) M name (nd.size, nd) (.prev (M name)) (.fail e) M) := by
    rintro name nd hn out rfl
    rw [Shard.swap]
    by_cases hrf : ref st.length = true
    · rw [if_pos hrf]
      right
      exact ⟨⟨hr, hh⟩, ⟨[], rfl⟩, _, rfl, .add ⟨_, le_refl _, le_refl _, hrf⟩, .add ⟨_, le_refl _, le_refl _, hrf⟩⟩
    · rw [if_neg hrf]
      generalize he : Shard.swapValue H net (Shard.fuel H name) s 0 name (some (makeLink (linkNamePrefix s.size 0 ++ name) nd)) t = out
      obtain ⟨r, s', t'⟩ := out
      have hm : ∀ x, x ∈ st → x ∈ nd :: st := fun x hx => by simp [hx]
      rcases swap_root hp net hr hh name hn _ (by rintro l ⟨⟩; exact root_name hp hr name) t he with ⟨lo, cs', h1, h2, _, h3, h4, h5, _⟩ | ⟨h4, h5⟩
      · left
        exact ⟨lo, cs', h1, h2, ⟨RepS.mono hm _ _ h4, h3⟩, h5, rfl⟩
      · right
        refine ⟨⟨RepS.mono hm _ _ h4, hh⟩, ⟨[nd], rfl⟩, ?_⟩
        rcases h5 with ⟨h5, h6, _, k', h7, h8, h9⟩ | ⟨_, _, h5⟩ | ⟨h5, h6⟩
        · exact ⟨_, h5, .deep h6 k' h7 h8 h9, .deep h6 k' h7 h8 h9⟩
        · cases h5
        · exact ⟨_, h5, .fetch h6.failed, .fetch h6.failed⟩
  have htake : ∀ (name : Bytes), name ≠ [] → ∀ (out : Except Err (Option Link) × Shard × Nat), s.take H net name t = out →
      (∃ l cs', out.1 = .ok (some l) ∧ M name = some (linkVal l) ∧ Inv H lg b cs' ⟨out.2.1, out.2.2, st⟩ (M.upd name none) ∧
          tswap (hix H lg) (levels lg) 0 b cs name none = .ok (M name, cs')) ∨
      (Inv H lg b cs ⟨out.2.1, out.2.2, st⟩ M ∧ ∃ e, out.1 = .error e ∧ ∀ f, DelStep (FetchFailed net t out.2.2) M name f (.fail e) M) := by
    rintro name hn out rfl
    rw [Shard.take]
    generalize he : Shard.swapValue H net (Shard.fuel H name) s 0 name none t = out
    obtain ⟨r, s', t'⟩ := out
    rcases swap_root hp net hr hh name hn _ (by simp) t he with ⟨lo, cs', h1, h2, hne, h3, h4, h5, _⟩ | ⟨h4, h5⟩
    · left
      cases lo with
      | none => exact absurd h2.symm (hne rfl)
      | some l => exact ⟨l, cs', h1, h2.symm, ⟨h4, h3⟩, h5⟩
    · right
      refine ⟨⟨h4, hh⟩, ?_⟩
      rcases h5 with ⟨h5, h6, h7, _⟩ | ⟨h5, h6, _⟩ | ⟨h5, h6⟩
      · exact absurd rfl h7
      · exact ⟨_, h5, fun f => .absent h6⟩
      · exact ⟨_, h5, fun f => .fetch h6.failed⟩
  cases op with
  | set name nd =>
    have hn : name ≠ [] := fun h => hop (by rw [h]; rfl)
    generalize he : s.swap H net ref name nd t st = out
    have h1 := hswap name nd hn out he
    obtain ⟨r, s', t', st'⟩ := out
    rcases h1 with ⟨lo, cs', h1, h2, h3, h4, h5⟩ | ⟨h1, h2, e, h3, h4, _⟩
    · simp only at h1 h3 h5; subst h1; subst h5
      simp only [exec, he]
      exact ⟨b, cs', _, h3, .swap rfl hn h4, ⟨[nd], rfl⟩, .set .ok⟩
    · simp only at h1 h2 h3 h4; subst h3
      simp only [exec, he]
      exact ⟨b, cs, M, h1, .same _, h2, .set h4⟩
  | swap name nd =>
    have hn : name ≠ [] := fun h => hop (by rw [h]; rfl)
    generalize he : s.swap H net ref name nd t st = out
    have h1 := hswap name nd hn out he
    obtain ⟨r, s', t', st'⟩ := out
    rcases h1 with ⟨lo, cs', h1, h2, h3, h4, h5⟩ | ⟨h1, h2, e, h3, _, h4⟩
    · simp only at h1 h3 h5; subst h1; subst h5
      simp only [exec, he, h2]
      exact ⟨b, cs', _, h3, .swap rfl hn h4, ⟨[nd], rfl⟩, .swap .ok⟩
    · simp only at h1 h2 h3 h4; subst h3
      simp only [exec, he]
      exact ⟨b, cs, M, h1, .same _, h2, .swap h4⟩
  | setLink name l =>
    have hn : name ≠ [] := fun h => hop (by rw [h]; rfl)
    simp only [exec, Shard.setLinkOp]
    generalize he : Shard.swapValue H net (Shard.fuel H name) s 0 name (some (Link.rename l (linkNamePrefix s.size 0 ++ name))) t = out
    obtain ⟨r, s', t'⟩ := out
    rcases swap_root hp net hr hh name hn _ (by rintro l ⟨⟩; exact root_name hp hr name) t he with ⟨lo, cs', h1, h2, _, h3, h4, h5, _⟩ | ⟨h4, h5⟩
    · subst h1
      exact ⟨b, cs', _, ⟨h4, h3⟩, .swap rfl hn h5, ⟨[], rfl⟩, .setLink .ok⟩
    · rcases h5 with ⟨h5, h6, _, k', h7, h8, h9⟩ | ⟨_, _, h5⟩ | ⟨h5, h6⟩
      · subst h5; exact ⟨b, cs, M, ⟨h4, hh⟩, .same _, ⟨[], rfl⟩, .setLink (.deep h6 k' h7 h8 h9)⟩
      · cases h5
      · subst h5; exact ⟨b, cs, M, ⟨h4, hh⟩, .same _, ⟨[], rfl⟩, .setLink (.fetch h6.failed)⟩
  | remove name =>
    have hn : name ≠ [] := fun h => hop (by rw [h]; rfl)
    generalize he : s.take H net name t = out
    have h1 := htake name hn out he
    obtain ⟨r, s', t'⟩ := out
    rcases h1 with ⟨l, cs', h1, h2, h3, h4⟩ | ⟨h1, e, h2, h3⟩
    · simp only at h1 h3; subst h1
      simp only [exec, he]
      exact ⟨b, cs', _, h3, .swap rfl hn h4, ⟨[], rfl⟩, .remove (.ok _ h2)⟩
    · simp only at h1 h2 h3; subst h2
      simp only [exec, he]
      exact ⟨b, cs, M, h1, .same _, ⟨[], rfl⟩, .remove (h3 _)⟩
  | take name =>
    have hn : name ≠ [] := fun h => hop (by rw [h]; rfl)
    generalize he : s.take H net name t = out
    have h1 := htake name hn out he
    obtain ⟨r, s', t'⟩ := out
    rcases h1 with ⟨l, cs', h1, h2, h3, h4⟩ | ⟨h1, e, h2, h3⟩
    · simp only at h1 h3; subst h1
      simp only [exec, he]
      exact ⟨b, cs', _, h3, .swap rfl hn h4, ⟨[], rfl⟩, .take (.ok (r := fun v => .prev (some v)) _ h2)⟩
    · simp only at h1 h2 h3; subst h2
      simp only [exec, he]
      exact ⟨b, cs, M, h1, .same _, ⟨[], rfl⟩, .take (h3 _)⟩
  | find name =>
    have h1 := get_sim hp net (levels lg) 0 anyKey b cs s name t (Shard.fuel H name) (by omega) hh.wf hr (fuel_ok hp name)
    rw [← hh.map, Nat.zero_mul] at h1
    simp only [exec, Shard.find]
    generalize Shard.getValue H net (Shard.fuel H name) s 0 name t = out at h1 ⊢
    generalize hM : M name = m at h1
    cases h1 with
    | ok hl hr' ht => exact ⟨b, cs, M, ⟨hr', hh⟩, .same _, ⟨[], rfl⟩, .find _ (by rw [hM, ← hl]; rfl)⟩
    | err hr' ht => exact ⟨b, cs, M, ⟨hr', hh⟩, .same _, ⟨[], rfl⟩, .findAbsent hM⟩
    | net hr' hf => exact ⟨b, cs, M, ⟨hr', hh⟩, .same _, ⟨[], rfl⟩, .findFetch hf.failed⟩
  | forEach cb =>
    have h1 := forEach_sim hp net cb s.depth s b cs (levels lg) 0 anyKey { out := [], t := t } hh.wf hr (depth_rep _ _ hr)
    simp only [exec, Shard.forEachLink]
    generalize forEachF net cb s.depth s { out := [], t := t } = out at h1 ⊢
    obtain ⟨r, s', es⟩ := out
    obtain ⟨hr', es', hpre, hout, ht, h1⟩ := h1
    simp only [List.nil_append] at hout
    simp only at hr' h1
    refine ⟨b, cs, M, ⟨hr', hh⟩, .same _, ⟨[], rfl⟩, ?_⟩
    have hl := entries_lists hh
    obtain ⟨more, hmore⟩ := hpre
    rw [← hmore, List.map_append, ← hout] at hl
    rcases h1 with ⟨rfl, he, hcb⟩ | ⟨rfl, hf, hcb⟩ | ⟨rfl, hne, hl1, hcb⟩
    · have : more = [] := by rw [he] at hmore; simpa using hmore
      rw [this] at hl
      simp only [List.map_nil, List.append_nil] at hl
      exact .each hl (fun j hj => hcb j (by simp) hj)
    · exact .eachFetch hl (fun j hj => hcb j (by simp) hj) hf.failed
    · have hne' : es.out ≠ [] := by rw [hout]; simpa using hne
      have hsp := List.dropLast_append_getLast hne'
      have hlen : es.out.length = es.out.dropLast.length + 1 := by
        rw [List.length_dropLast]; have := List.length_pos_iff.mpr hne'; omega
      rw [← hsp] at hl ⊢
      rw [List.append_assoc] at hl
      refine .eachStop hl (fun j hj => hcb j (by simp) (by omega)) ?_
      rw [hlen] at hl1; simpa using hl1
  | node =>
    have h1 := toNode_sim hp ref (levels lg + 1) s b cs hr ⟨_, _, _, hh.wf, by omega⟩ st
    simp only [exec]
    generalize Shard.toNode ref s st = out at h1 ⊢
    obtain ⟨r, st'⟩ := out
    obtain ⟨⟨ext, he, _⟩, h1⟩ := h1
    simp only at he h1
    have hm : ∀ x, x ∈ st → x ∈ st' := fun x hx => by rw [he]; simp [hx]
    rcases h1 with ⟨rfl, h1⟩ | ⟨rfl, h1⟩
    · exact ⟨b, cs, M, ⟨RepS.mono hm _ _ hr, hh⟩, .same _, ⟨ext, he⟩, .nodeAdd ⟨_, by dsimp only; rw [he]; simp, le_refl _, h1⟩⟩
    · exact ⟨b, cs, M, ⟨RepS.mono hm _ _ hr, hh⟩, .same _, ⟨ext, he⟩, .node⟩
  | reload =>
    have h1 := toNode_sim hp ref (levels lg + 1) s b cs hr ⟨_, _, _, hh.wf, by omega⟩ st
    simp only [exec]
    generalize Shard.toNode ref s st = out at h1 ⊢
    obtain ⟨r, st'⟩ := out
    obtain ⟨⟨ext, he, _⟩, h1⟩ := h1
    simp only at he h1
    have hm : ∀ x, x ∈ st → x ∈ st' := fun x hx => by rw [he]; simp [hx]
    rcases h1 with ⟨rfl, h1⟩ | ⟨rfl, h1⟩
    · exact ⟨b, cs, M, ⟨RepS.mono hm _ _ hr, hh⟩, .same _, ⟨ext, he⟩, .reloadAdd ⟨_, by dsimp only; rw [he]; simp, le_refl _, h1⟩⟩
    · obtain ⟨s', hl, hrep⟩ := repS_load (A := fun x => x ∈ st') hp.valid (wf_idx hh.wf) (b := b)
        (fun x hx => (h1 x hx).mono (fun x hx => hx.elim (hm x) id))
      simp only [hl]
      exact ⟨b, cs, M, ⟨hrep, hh⟩, .same _, ⟨ext, he⟩, .reload⟩
  | setCidBuilder bd =>
    refine ⟨pbBuilder bd, cs, M, ⟨?_, hh⟩, .build bd, ⟨[], rfl⟩, .setCidBuilder⟩
    rw [repS_node] at hr
    obtain ⟨h1, h2, h3, h4, h5, h6⟩ := hr
    cases s
    simp only [exec, Shard.setCidBuilder]
    rw [repS_node]
    exact ⟨h1, h2, h3, rfl, h5, h6⟩

/-- A history on a represented shard. -/
theorem execAll_spec (hp : HP H lg) (net : Net) (ref : Nat → Bool) : ∀ (ops : List Op) {b : Builder} {cs : List Kid} {c : Cfg} {M : NMap},
    Inv H lg b cs c M → NoEmptyName ops →
    ∃ b' cs' M', Inv H lg b' cs' (execAll H net ref ops c) M' ∧ SpecRun H net ref (Collide H lg) c M ops M'
  | [], b, cs, c, M, hi, _ => ⟨b, cs, M, hi, .nil⟩
  | op :: ops, b, cs, c, M, hi, hn => by
    obtain ⟨b', cs', M', h1, _, _, h2⟩ := exec_spec hp net ref hi op (hn op (by simp))
    obtain ⟨b'', cs'', M'', h3, h4⟩ := execAll_spec hp net ref ops h1 (fun o ho => hn o (by simp [ho]))
    exact ⟨b'', cs'', M'', h3, .cons rfl h2 h4⟩

/-- Canonical shape survives histories that do not change the CID builder. -/
theorem exec_canon (hp : HP H lg) (net : Net) (ref : Nat → Bool) : ∀ (ops : List Op) {b : Builder} {cs : List Kid} {c : Cfg} {M : NMap},
    Inv H lg b cs c M → Canon b (levels lg) cs → NoEmptyName ops → (∀ op ∈ ops, ∀ bd, op ≠ .setCidBuilder bd) →
    ∃ cs' M', Inv H lg b cs' (execAll H net ref ops c) M' ∧ Canon b (levels lg) cs'
  | [], b, cs, c, M, hi, hc, _, _ => ⟨cs, M, hi, hc⟩
  | op :: ops, b, cs, c, M, hi, hc, hn, hb => by
    obtain ⟨b', cs', M', h1, h2, _⟩ := exec_spec hp net ref hi op (hn op (by simp))
    have h3 : b' = b ∧ Canon b (levels lg) cs' := by
      cases h2 with
      | same => exact ⟨rfl, hc⟩
      | swap _ hk h => exact ⟨rfl, (canon_tswap hix_lt b (levels lg) 0 anyKey cs _ _ _ _ hi.holds.wf trivial hk hc h).1⟩
      | build bd => exact absurd rfl (hb _ (by simp) bd)
    obtain ⟨rfl, h3⟩ := h3
    exact exec_canon hp net ref ops h1 h3 (fun o ho => hn o (by simp [ho])) (fun o ho => hb o (by simp [ho]))

/-- A new shard holds the empty map. -/
theorem inv_new (hp : HP H lg) (bd : Option Builder) (t : Nat) (st : List Node) :
    Inv H lg (pbBuilder bd) [] ⟨.mk (2 ^ lg) (bfNew (2 ^ lg)) [] bd [] none, t, st⟩ (fun _ => none) :=
  ⟨rep_new hp bd, ⟨by have := levels_pos hp; obtain ⟨m, hm⟩ : ∃ m, levels lg = m + 1 := ⟨levels lg - 1, by omega⟩
                      rw [hm]; exact wf_nil _ _ _, fun k => (tfind_nil _ _ _).symm⟩⟩

end Unixfs.Hamt
