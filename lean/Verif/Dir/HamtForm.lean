import Verif.Dir.Enum

/-!
# A `HAMTDirectory` and the switches between the two forms

The definitions in this file belong to proofs; they model no code.
-/

namespace Unixfs.Hamt

/-! ### The fetch counter grows -/

theorem get_mono (net : Net) (s : Shard) (i t : Nat) : t ≤ (s.get net i t).2 := by
  rw [Shard.get]
  split
  · exact le_refl _
  · exact le_refl _
  · split
    · exact le_refl _
    · split
      · split <;> exact Nat.le_succ _
      · exact Nat.le_succ _
    · split <;> exact le_refl _

theorem swapValue_mono (H : Hash) (net : Net) : ∀ (f : Nat) (s : Shard) (consumed : Nat) (key : Bytes) (value : Option Link) (t : Nat),
    t ≤ (Shard.swapValue H net f s consumed key value t).2.2 := by
  intro f
  induction f with
  | zero => intro s c key v t; exact le_refl _
  | succ f ih =>
    intro s consumed key value t
    rw [Shard.swapValue]
    split
    · exact le_refl _
    rename_i idx consumed' _
    split
    · split <;> exact le_refl _
    have hg := get_mono net s (s.sliceIndex idx) t
    dsimp only
    generalize hG : s.get net (s.sliceIndex idx) t = G at hg
    obtain ⟨r, t1⟩ := G
    cases r with
    | error e => exact hg
    | ok p =>
      obtain ⟨child, s1⟩ := p
      dsimp only at hg ⊢
      split
      · split
        · cases value with
          | none =>
            dsimp only
            split <;> exact hg
          | some v => exact hg
        · cases value with
          | none => exact hg
          | some v =>
            dsimp only
            split
            · exact hg
            rename_i c0 _
            have h1 := ih (c0.setCidBuilder s1.builder) consumed' key (some v) t1
            generalize Shard.swapValue H net f (c0.setCidBuilder s1.builder) consumed' key (some v) t1 = R1 at h1
            obtain ⟨r1, c1, t2⟩ := R1
            cases r1 with
            | error e => exact le_trans hg h1
            | ok o1 =>
              dsimp only at h1 ⊢
              have h2 := ih c1 consumed' child.key child.val t2
              generalize Shard.swapValue H net f c1 consumed' child.key child.val t2 = R2 at h2
              obtain ⟨r2, c2, t3⟩ := R2
              cases r2 <;> exact le_trans hg (le_trans h1 h2)
      · have h1 := ih child consumed' key value t1
        generalize Shard.swapValue H net f child consumed' key value t1 = R1 at h1
        obtain ⟨r1, c1, t2⟩ := R1
        cases r1 with
        | error e => exact le_trans hg h1
        | ok old =>
          cases value with
          | none => exact le_trans hg h1
          | some v => exact le_trans hg h1

theorem getValue_mono (H : Hash) (net : Net) : ∀ (f : Nat) (s : Shard) (consumed : Nat) (key : Bytes) (t : Nat),
    t ≤ (Shard.getValue H net f s consumed key t).2.2 := by
  intro f
  induction f with
  | zero => intro s c key t; exact le_refl _
  | succ f ih =>
    intro s consumed key t
    rw [Shard.getValue]
    split
    · exact le_refl _
    rename_i idx consumed' _
    split
    · exact le_refl _
    have hg := get_mono net s (s.sliceIndex idx) t
    dsimp only
    generalize hG : s.get net (s.sliceIndex idx) t = G at hg
    obtain ⟨r, t1⟩ := G
    cases r with
    | error e => exact hg
    | ok p =>
      obtain ⟨child, s1⟩ := p
      dsimp only at hg ⊢
      split
      · split <;> exact hg
      · exact le_trans hg (ih child consumed' key t1)

theorem FetchFailed.mono {net : Net} {a b c d : Nat} (h : FetchFailed net a b) (h1 : c ≤ a) (h2 : b ≤ d) : FetchFailed net c d := by
  obtain ⟨u, x, h3, h4, h5⟩ := h
  exact ⟨u, x, by omega, by omega, h5⟩

end Unixfs.Hamt

namespace Unixfs.Dir
open Unixfs.Hamt

variable {H : Hash} {lg : Nat} {bo : Option Builder}

theorem maxpadlen_le (hp : HP H lg) : maxpadlen (2 ^ lg) ≤ 3 := by
  have h : ∀ s ∈ [8, 16, 32, 64, 128, 256, 512, 1024], maxpadlen s ≤ 3 := by decide +kernel
  exact h _ (validSize_cases hp.valid)

/-- If the CID builder has always been `b0`, the trie has the shape that its entries determine. -/
def Shape (lg : Nat) (bo : Option Builder) (b : Builder) (cs : List Kid) : Prop := ∀ b0, bo = some b0 → b = b0 ∧ Canon b0 (levels lg) cs

/-- The shard `s` represents the map `M`, with everything unloaded in the store. -/
def SInv (H : Hash) (lg : Nat) (bo : Option Builder) (s : Shard) (st : List Node) (M : NMap) : Prop :=
  ∃ b cs, Inv H lg b cs ⟨s, 0, st⟩ M ∧ Shape lg bo b cs

theorem Shape.swap {b : Builder} {cs cs' : List Kid} {M : NMap} {key : Bytes} {value old : Option Val} (h : Shape lg bo b cs) (hh : Holds H lg cs M) (hk : key ≠ [])
    (ht : tswap (hix H lg) (levels lg) 0 b cs key value = .ok (old, cs')) : Shape lg bo b cs' := by
  intro b0 hb
  obtain ⟨rfl, hc⟩ := h b0 hb
  exact ⟨rfl, (canon_tswap hix_lt b (levels lg) 0 anyKey cs _ _ _ _ hh.wf trivial hk hc ht).1⟩

theorem Shape.step {b b' : Builder} {cs cs' : List Kid} {M : NMap} {op : Op} (h : Shape lg bo b cs) (hh : Holds H lg cs M) (ht : TStep H lg b cs b' cs' op)
    (hop : ∀ bd, op ≠ .setCidBuilder bd) : Shape lg bo b' cs' := by
  cases ht with
  | same => exact h
  | swap _ hk ht => exact h.swap hh hk ht
  | build bd => exact absurd rfl (hop bd)

theorem SInv.at {s : Shard} {st : List Node} {M : NMap} (h : SInv H lg bo s st M) (t : Nat) : ∃ b cs, Inv H lg b cs ⟨s, t, st⟩ M ∧ Shape lg bo b cs := by
  obtain ⟨b, cs, ⟨h1, h2⟩, h3⟩ := h; exact ⟨b, cs, ⟨h1, h2⟩, h3⟩

theorem SInv.of {b : Builder} {cs : List Kid} {c : Hamt.Cfg} {M : NMap} (h : Inv H lg b cs c M) (hs : Shape lg bo b cs) : SInv H lg bo c.shard c.st M := ⟨b, cs, ⟨h.1, h.2⟩, hs⟩

theorem SInv.empty {s : Shard} {st : List Node} {M : NMap} (h : SInv H lg bo s st M) : M [] = none := by
  obtain ⟨b, cs, ⟨_, hh⟩, _⟩ := h
  cases hm : M [] with
  | none => rfl
  | some v => rw [hh.map] at hm; exact absurd rfl (tfind_some hh.wf hm).2

theorem SInv.finite {s : Shard} {st : List Node} {M : NMap} (h : SInv H lg bo s st M) : ∃ ls, Lists M ls := by
  obtain ⟨b, cs, ⟨_, hh⟩, _⟩ := h; exact ⟨_, entries_lists hh⟩

/-- `Find`. -/
theorem sfind (hp : HP H lg) (net : Net) {s : Shard} {st : List Node} {M : NMap} (hi : SInv H lg bo s st M) (name : Bytes) (t : Nat) {r : Except Err (Option Link)}
    {s' : Shard} {t' : Nat} (he : s.find H net name t = (r, s', t')) :
    SInv H lg bo s' st M ∧ t ≤ t' ∧
      ((∃ l, r = .ok (some l) ∧ M name = some (linkVal l)) ∨ (r = .error .notExist ∧ M name = none) ∨ (r = .error .notFound ∧ FetchFailed net t t')) := by
  obtain ⟨b, cs, hi, hsh⟩ := hi.at t
  have hm : t ≤ t' := by
    have := getValue_mono H net (Shard.fuel H name) s 0 name t
    rw [Shard.find] at he
    rw [he] at this; exact this
  obtain ⟨b', cs', M', h1, hts, _, h2⟩ := exec_spec hp net (fun _ => false) hi (.find name) (by simp [Op.target])
  simp only [Hamt.exec, he] at h1 h2
  cases r with
  | error e =>
    dsimp only at h1 h2
    cases h2 with
    | findAbsent h => exact ⟨SInv.of h1 (hsh.step hi.holds hts (by simp)), hm, .inr (.inl ⟨rfl, h⟩)⟩
    | findFetch h => exact ⟨SInv.of h1 (hsh.step hi.holds hts (by simp)), hm, .inr (.inr ⟨rfl, h⟩)⟩
  | ok o =>
    cases o with
    | none => dsimp only at h2; cases h2
    | some l =>
      dsimp only at h1 h2
      generalize hv : linkVal l = v at h2
      cases h2 with
      | find _ h => exact ⟨SInv.of h1 (hsh.step hi.holds hts (by simp)), hm, .inl ⟨l, rfl, by rw [hv]; exact h⟩⟩

/-- The size of the link that an update returns. -/
def oldLink (lo : Option Link) : Int := match lo with | some l => linkSize l.name l.target | none => 0

theorem oldLink_bounds (hp : HP H lg) {M : NMap} {name : Bytes} {lo : Option Link} (h : lo.map linkVal = M name) (hn : ∀ l, lo = some l → NameOk (2 ^ lg) name l.name) :
    oldSize M name ≤ oldLink lo ∧ oldLink lo ≤ oldSize M name + 3 := by
  have h3 := maxpadlen_le hp
  cases lo with
  | none => rw [oldSize, ← h]; simp [oldLink]
  | some l =>
    have := hn l rfl
    rw [oldSize, ← h]
    simp only [oldLink, Option.map_some, linkVal, linkSize]
    have := this.lo; have := (hn l rfl).hi
    omega

/-- `Swap` and `SetLink`. -/
theorem sset (hp : HP H lg) (net : Net) {s : Shard} {st : List Node} {M : NMap} (hi : SInv H lg bo s st M) (name : Bytes) (hn : name ≠ []) (l : Link)
    (hl : l.name = linkNamePrefix s.size 0 ++ name) (t : Nat) {r : Except Err (Option Link)} {s' : Shard} {t' : Nat}
    (he : Shard.swapValue H net (Shard.fuel H name) s 0 name (some l) t = (r, s', t')) :
    t ≤ t' ∧ ((∃ lo, r = .ok lo ∧ lo.map linkVal = M name ∧ (∀ l, lo = some l → NameOk (2 ^ lg) name l.name) ∧ SInv H lg bo s' st (M.upd name (some (linkVal l)))) ∨
      (SInv H lg bo s' st M ∧ ((r = .error .tooDeep ∧ M name = none ∧ ∃ k', M k' ≠ none ∧ k' ≠ name ∧ Collide H lg name k') ∨
        (r = .error .notFound ∧ FetchFailed net t t')))) := by
  have hm : t ≤ t' := by have := swapValue_mono H net (Shard.fuel H name) s 0 name (some l) t; rw [he] at this; exact this
  obtain ⟨b, cs, ⟨hr, hh⟩, hsh⟩ := hi
  refine ⟨hm, ?_⟩
  rcases swap_root hp net hr hh name hn _ (by rintro x ⟨⟩; rw [hl]; exact root_name hp hr name) t he with ⟨lo, cs', h1, h2, _, h3, h4, hT, h5⟩ | ⟨h4, h5⟩
  · exact .inl ⟨lo, h1, h2, h5, b, cs', ⟨h4, h3⟩, hsh.swap hh hn hT⟩
  · right
    refine ⟨⟨b, cs, ⟨h4, hh⟩, hsh⟩, ?_⟩
    rcases h5 with ⟨h5, h6, _, h7⟩ | ⟨_, _, h5⟩ | ⟨h5, h6⟩
    · exact .inl ⟨h5, h6, h7⟩
    · cases h5
    · exact .inr ⟨h5, h6.failed⟩

/-- `Take`. -/
theorem stake (hp : HP H lg) (net : Net) {s : Shard} {st : List Node} {M : NMap} (hi : SInv H lg bo s st M) (name : Bytes) (hn : name ≠ []) (t : Nat)
    {r : Except Err (Option Link)} {s' : Shard} {t' : Nat} (he : s.take H net name t = (r, s', t')) :
    t ≤ t' ∧ ((∃ lo v, r = .ok lo ∧ M name = some v ∧ lo.map linkVal = M name ∧ (∀ l, lo = some l → NameOk (2 ^ lg) name l.name) ∧ SInv H lg bo s' st (M.upd name none)) ∨
      (SInv H lg bo s' st M ∧ ((r = .error .notExist ∧ M name = none) ∨ (r = .error .notFound ∧ FetchFailed net t t')))) := by
  rw [Shard.take] at he
  have hm : t ≤ t' := by have := swapValue_mono H net (Shard.fuel H name) s 0 name none t; rw [he] at this; exact this
  obtain ⟨b, cs, ⟨hr, hh⟩, hsh⟩ := hi
  refine ⟨hm, ?_⟩
  rcases swap_root hp net hr hh name hn _ (by simp) t he with ⟨lo, cs', h1, h2, hne, h3, h4, hT, h5⟩ | ⟨h4, h5⟩
  · obtain ⟨v, hv⟩ := Option.ne_none_iff_exists'.mp (hne rfl)
    exact .inl ⟨lo, v, h1, hv, h2, h5, b, cs', ⟨h4, h3⟩, hsh.swap hh hn hT⟩
  · right
    refine ⟨⟨b, cs, ⟨h4, hh⟩, hsh⟩, ?_⟩
    rcases h5 with ⟨_, _, h7, _⟩ | ⟨h5, h6, _⟩ | ⟨h5, h6⟩
    · exact absurd rfl h7
    · exact .inl ⟨h5, h6⟩
    · exact .inr ⟨h5, h6.failed⟩

theorem SInv.add {s : Shard} {st : List Node} {M : NMap} (h : SInv H lg bo s st M) (ext : List Node) : SInv H lg bo s (ext ++ st) M := by
  obtain ⟨b, cs, ⟨h1, h2⟩, h3⟩ := h
  exact ⟨b, cs, ⟨RepS.mono (fun x hx => by simp only at hx; simp [hx]) _ _ h1, h2⟩, h3⟩

/-- `HAMTDirectory.AddChild`. -/
theorem hadd {env : Env} (hp : HP env.H lg) {d : HamtDir} {st : List Node} {M : NMap} (hi : SInv env.H lg bo d.shard st M) (name : Bytes) (hn : name ≠ []) (nd : Node) (t : Nat)
    {r : Except Err Unit} {d' : HamtDir} {t' : Nat} {st' : List Node} (he : d.addChild env name nd t st = (r, d', t', st')) :
    t ≤ t' ∧ st.length ≤ st'.length ∧
    ((r = .ok () ∧ SInv env.H lg bo d'.shard st' (M.upd name (some (nd.size, nd))) ∧ 
        d'.sizeChange ≤ d.sizeChange - oldSize M name + linkSize name nd ∧ d.sizeChange - oldSize M name + linkSize name nd ≤ d'.sizeChange + 3) ∨
      (SInv env.H lg bo d'.shard st' M ∧ d'.sizeChange = d.sizeChange ∧
        ((r = .error .tooDeep ∧ M name = none ∧ ∃ k', M k' ≠ none ∧ k' ≠ name ∧ Collide env.H lg name k') ∨
         (r = .error .notFound ∧ FetchFailed env.net t t') ∨ (r = .error .addFailed ∧ AddRefused env.ref st.length st'.length)))) := by
  rw [HamtDir.addChild, Shard.swap] at he
  by_cases hrf : env.ref st.length = true
  · rw [if_pos hrf] at he
    simp only [Prod.mk.injEq] at he
    obtain ⟨rfl, rfl, rfl, rfl⟩ := he
    exact ⟨le_refl _, le_refl _, .inr ⟨hi, rfl, .inr (.inr ⟨rfl, _, le_refl _, le_refl _, hrf⟩)⟩⟩
  · rw [if_neg hrf] at he
    generalize hs : Shard.swapValue env.H env.net (Shard.fuel env.H name) d.shard 0 name (some (makeLink (linkNamePrefix d.shard.size 0 ++ name) nd)) t = out at he
    obtain ⟨r1, s1, t1⟩ := out
    obtain ⟨hm, h1⟩ := sset hp env.net hi name hn _ rfl t hs
    rcases h1 with ⟨lo, rfl, h2, h3, h4⟩ | ⟨h4, h5⟩
    · simp only [Prod.mk.injEq] at he
      obtain ⟨rfl, rfl, rfl, rfl⟩ := he
      have hb := oldLink_bounds hp h2 h3
      refine ⟨hm, by simp, .inl ⟨rfl, h4.add [nd], ?_, ?_⟩⟩
      · show d.sizeChange - oldLink lo + _ ≤ _
        omega
      · show _ ≤ d.sizeChange - oldLink lo + _ + 3
        omega
    · rcases h5 with ⟨rfl, h6⟩ | ⟨rfl, h6⟩
      · simp only [Prod.mk.injEq] at he
        obtain ⟨rfl, rfl, rfl, rfl⟩ := he
        exact ⟨hm, by simp, .inr ⟨h4.add [nd], rfl, .inl ⟨rfl, h6⟩⟩⟩
      · simp only [Prod.mk.injEq] at he
        obtain ⟨rfl, rfl, rfl, rfl⟩ := he
        exact ⟨hm, by simp, .inr ⟨h4.add [nd], rfl, .inr (.inl ⟨rfl, h6⟩)⟩⟩

/-- `HAMTDirectory.RemoveChild`. -/
theorem hremove {env : Env} (hp : HP env.H lg) {d : HamtDir} {st : List Node} {M : NMap} (hi : SInv env.H lg bo d.shard st M) (name : Bytes) (hn : name ≠ []) (t : Nat)
    {r : Except Err Unit} {d' : HamtDir} {t' : Nat} (he : d.removeChild env name t = (r, d', t')) :
    t ≤ t' ∧ ((∃ v, r = .ok () ∧ M name = some v ∧ SInv env.H lg bo d'.shard st (M.upd name none) ∧
        d'.sizeChange ≤ d.sizeChange - oldSize M name ∧ d.sizeChange - oldSize M name ≤ d'.sizeChange + 3) ∨
      (SInv env.H lg bo d'.shard st M ∧ d'.sizeChange = d.sizeChange ∧
        ((r = .error .notExist ∧ M name = none) ∨ (r = .error .notFound ∧ FetchFailed env.net t t')))) := by
  rw [HamtDir.removeChild] at he
  generalize hs : d.shard.take env.H env.net name t = out at he
  obtain ⟨r1, s1, t1⟩ := out
  obtain ⟨hm, h1⟩ := stake hp env.net hi name hn t hs
  rcases h1 with ⟨lo, v, rfl, hv, h2, h3, h4⟩ | ⟨h4, h5⟩
  · simp only [Prod.mk.injEq] at he
    obtain ⟨rfl, rfl, rfl⟩ := he
    have hb := oldLink_bounds hp h2 h3
    refine ⟨hm, .inl ⟨v, rfl, hv, h4, ?_, ?_⟩⟩
    · show d.sizeChange - oldLink lo ≤ _
      omega
    · show _ ≤ d.sizeChange - oldLink lo + 3
      omega
  · rcases h5 with ⟨rfl, h6⟩ | ⟨rfl, h6⟩
    · simp only [Prod.mk.injEq] at he
      obtain ⟨rfl, rfl, rfl⟩ := he
      exact ⟨hm, .inr ⟨h4, rfl, .inl ⟨rfl, h6⟩⟩⟩
    · simp only [Prod.mk.injEq] at he
      obtain ⟨rfl, rfl, rfl⟩ := he
      exact ⟨hm, .inr ⟨h4, rfl, .inr ⟨rfl, h6⟩⟩⟩

/-! ### The decision to switch -/

/-- The size of the entry that an addition makes. -/
def addSize (name : Bytes) : Option Node → Int
  | some nd => linkSize name nd
  | none => 0

/-- The change of size that adding `nd` (or removing) under `name` makes. -/
def opSize (M : NMap) (name : Bytes) (nd : Option Node) : Int :=
  - oldSize M name + addSize name nd

/-- Outcomes of `needsToSwitchToBasicDir`. -/
inductive Decision (env : Env) (M : NMap) (thr sc op : Int) (t t' k k' : Nat) : Except Err Bool → Prop
  | fetch (hf : FetchFailed env.net t t') : Decision env M thr sc op t t' k k' (.error .notFound)
  | enum {e : Err} (hk : k' = k + 1) (h : (∃ x, env.bad k x) ∨ env.cancel k) : Decision env M thr sc op t t' k k' (.error e)
  | off (h : thr = 0) : Decision env M thr sc op t t' k k' (.ok false)
  | grows (h0 : thr ≠ 0) (h : sc + op ≥ 0) : Decision env M thr sc op t t' k k' (.ok false)
  | above {ls : List Link} (h0 : thr ≠ 0) (hs : sc + op < 0) (hk : k' = k + 1) (hl : Lists M ls) (h : (total ls : Int) + op ≥ thr) : Decision env M thr sc op t t' k k' (.ok false)
  | below {ls : List Link} (h0 : thr ≠ 0) (hs : sc + op < 0) (hk : k' = k + 1) (hl : Lists M ls) (h : ls = [] ∨ (total ls : Int) + op < thr) :
      Decision env M thr sc op t t' k k' (.ok true)
  | cancelled (h0 : thr ≠ 0) (hs : sc + op < 0) (hk : k' = k + 1) (h : env.cancel k) : Decision env M thr sc op t t' k k' (.ok true)

theorem decide_spec {env : Env} (hreal : env.Real) (hp : HP env.H lg) {d : HamtDir} {st : List Node} {M : NMap} (hi : SInv env.H lg bo d.shard st M)
    {thr op : Int} (h0 : thr ≠ 0) (t0 t : Nat) (k : Nat) {r : Except Err Bool} {d' : HamtDir} {t' k' : Nat}
    (he : HamtDir.needsToSwitchToBasicDir.decide env thr k d op t = (r, d', t', k')) :
    d' = d ∧ t' = t ∧ k ≤ k' ∧ k' ≤ k + 1 ∧ Decision env M thr d.sizeChange op t0 t' k k' r := by
  rw [HamtDir.needsToSwitchToBasicDir.decide] at he
  split at he
  · rename_i hs
    simp only [Prod.mk.injEq] at he
    obtain ⟨rfl, rfl, rfl, rfl⟩ := he
    exact ⟨rfl, rfl, le_refl _, by omega, .grows h0 hs⟩
  · rename_i hs
    rw [HamtDir.sizeBelowThreshold, if_neg h0] at he
    obtain ⟨b, cs, hi, _⟩ := hi
    have hsp := enum_spec hreal hp hi k (fun got => HamtDir.partialSize got + op ≥ thr)
    simp only at hsp
    generalize env.enum k d.shard (fun got => HamtDir.partialSize got + op ≥ thr) = R at he hsp
    obtain ⟨ret, got⟩ := R
    cases ret with
    | err e =>
      simp only [Prod.mk.injEq] at he
      obtain ⟨rfl, rfl, rfl, rfl⟩ := he
      exact ⟨rfl, rfl, by omega, by omega, .enum rfl (hsp.err e rfl)⟩
    | stopped =>
      simp only [Prod.mk.injEq] at he
      obtain ⟨rfl, rfl, rfl, rfl⟩ := he
      have h1 := hsp.stopped rfl
      simp only [decide_eq_true_eq, partialSize_eq] at h1
      obtain ⟨more, hm⟩ := hsp.part
      refine ⟨rfl, rfl, by omega, by omega, .above h0 (by omega) rfl hm ?_⟩
      rw [total_append]
      dsimp only at h1 ⊢
      omega
    | ended =>
      simp only [Prod.mk.injEq] at he
      obtain ⟨rfl, rfl, rfl, rfl⟩ := he
      refine ⟨rfl, rfl, by omega, by omega, ?_⟩
      rcases hsp.ended rfl with h1 | h1
      · exact .cancelled h0 (by omega) rfl h1
      · refine .below h0 (by omega) rfl h1 ?_
        rcases hsp.seen rfl with h2 | h2
        · exact .inl h2
        · right
          simp only [decide_eq_false_iff_not, partialSize_eq] at h2
          dsimp only at h2 ⊢
          omega

theorem needs_spec {env : Env} (hreal : env.Real) (hp : HP env.H lg) {d : HamtDir} {st : List Node} {M : NMap} (hi : SInv env.H lg bo d.shard st M) (thr : Int) (name : Bytes)
    (nd : Option Node) (t k : Nat) {r : Except Err Bool} {d' : HamtDir} {t' k' : Nat} (he : d.needsToSwitchToBasicDir env thr name nd t k = (r, d', t', k')) :
    SInv env.H lg bo d'.shard st M ∧ d'.sizeChange = d.sizeChange ∧ t ≤ t' ∧ k ≤ k' ∧ k' ≤ k + 1 ∧ Decision env M thr d.sizeChange (opSize M name nd) t t' k k' r := by
  rw [HamtDir.needsToSwitchToBasicDir.eq_def] at he
  by_cases h0 : thr = 0
  · rw [if_pos h0] at he
    simp only [Prod.mk.injEq] at he
    obtain ⟨rfl, rfl, rfl, rfl⟩ := he
    exact ⟨hi, rfl, le_refl _, le_refl _, by omega, .off h0⟩
  · rw [if_neg h0] at he
    dsimp only at he
    generalize hF : d.shard.find env.H env.net name t = F at he
    obtain ⟨r1, s1, t1⟩ := F
    obtain ⟨h1, h2, h3⟩ := sfind hp env.net hi name t hF
    dsimp only at he
    rcases h3 with ⟨l, rfl, hM⟩ | ⟨rfl, hM⟩ | ⟨rfl, hf⟩
    · have hop : opSize M name nd = - linkSize name l.target + addSize name nd := by
        rw [opSize, oldSize, hM]; rfl
      rw [hop]
      obtain ⟨rfl, rfl, h4, h5, h6⟩ := decide_spec hreal hp (d := { d with shard := s1 }) h1 h0 t _ _ he
      exact ⟨h1, rfl, h2, h4, h5, by cases nd <;> exact h6⟩
    · have hop : opSize M name nd = addSize name nd := by
        rw [opSize, oldSize, hM]; simp
      rw [hop]
      obtain ⟨rfl, rfl, h4, h5, h6⟩ := decide_spec hreal hp (d := { d with shard := s1 }) h1 h0 t _ _ he
      exact ⟨h1, rfl, h2, h4, h5, by cases nd <;> exact h6⟩
    · simp only [Prod.mk.injEq] at he
      obtain ⟨rfl, rfl, rfl, rfl⟩ := he
      exact ⟨h1, rfl, h2, le_refl _, by omega, .fetch hf⟩

/-! ### The switches -/

theorem toBasic_spec {env : Env} (hp : HP env.H lg) {d : HamtDir} {st : List Node} {M : NMap} (hi : SInv env.H lg bo d.shard st M) (t : Nat)
    {r : Except Err Basic} {d' : HamtDir} {t' : Nat} (he : d.switchToBasic env t = (r, d', t')) :
    SInv env.H lg bo d'.shard st M ∧ d'.sizeChange = d.sizeChange ∧ t ≤ t' ∧
      ((∃ b, r = .ok b ∧ BInv b M ∧ b.data = folderPBData ∧ ∀ b0, bo = some b0 → b.builder = b0) ∨ (r = .error .notFound ∧ FetchFailed env.net t t')) := by
  obtain ⟨b, cs, hi, hsh⟩ := hi.at t
  have hsim := forEach_sim hp env.net (fun _ => false) d.shard.depth d.shard b cs (levels lg) 0 anyKey { out := [], t := t } hi.holds.wf hi.rep (depth_rep _ _ hi.rep)
  obtain ⟨_, _, _, _, hm, _⟩ := hsim
  obtain ⟨b', cs', M', h1, hts, _, h2⟩ := exec_spec hp env.net (fun _ => false) hi (.forEach (fun _ => false)) (by simp [Op.target])
  rw [HamtDir.switchToBasic] at he
  simp only [Hamt.exec] at h1 h2
  rw [Shard.forEachLink] at he h1 h2
  generalize hF : forEachF env.net (fun _ => false) d.shard.depth d.shard { out := [], t := t } = F at he h1 h2 hm
  obtain ⟨r1, s1, es⟩ := F
  dsimp only at h1 h2 hm
  generalize hO : es.out = O at h2
  cases r1 with
  | none =>
    cases h2 with
    | each hl hcb =>
      subst hO
      obtain ⟨b1, g1, g2, g3, g4, g5⟩ := addLinks_spec es.out (d := Basic.empty.setCidBuilder d.shard.builder) (M' := M) (empty_inv.setBuilder _) (by
        have : (Basic.empty.setCidBuilder d.shard.builder).links = [] := by rw [Basic.empty, ofNode_eq]; rfl
        rw [this]; exact hl)
      dsimp only at he
      rw [g1] at he
      simp only [Prod.mk.injEq] at he
      obtain ⟨rfl, rfl, rfl⟩ := he
      refine ⟨SInv.of h1 (hsh.step hi.holds hts (by simp)), rfl, hm, .inl ⟨b1, rfl, g2, ?_, fun b0 hb => by rw [g4, ← (hsh b0 hb).1]; exact (repS_node.mp hi.rep).2.2.2.1⟩⟩
      rw [g3, Basic.empty, ofNode_eq]; rfl
  | some e =>
    simp only [Prod.mk.injEq] at he
    obtain ⟨rfl, rfl, rfl⟩ := he
    cases h2 with
    | eachFetch hl hcb hf => exact ⟨SInv.of h1 (hsh.step hi.holds hts (by simp)), rfl, hm, .inr ⟨rfl, hf⟩⟩
    | eachStop hl hcb hl' => cases hl'

theorem setLinks_spec {env : Env} (hp : HP env.H lg) : ∀ (ls pre : List Link) {s : Shard} {st : List Node} {M Mf : NMap}, SInv env.H lg bo s st M → Lists M pre → Lists Mf (pre ++ ls) →
    Mf [] = none → ∀ (t : Nat) {r : Except Err Shard} {t' : Nat}, Basic.setLinks env ls s t = (r, t') →
    t ≤ t' ∧ ((∃ s', r = .ok s' ∧ SInv env.H lg bo s' st Mf) ∨
      (r = .error .tooDeep ∧ ∃ k1 k2, Mf k1 ≠ none ∧ Mf k2 ≠ none ∧ k1 ≠ k2 ∧ Collide env.H lg k1 k2) ∨ (r = .error .notFound ∧ FetchFailed env.net t t'))
  | [], pre, s, st, M, Mf, hi, hpre, hf, hne, t, r, t', he => by
    rw [List.append_nil] at hf
    simp only [Basic.setLinks, Prod.mk.injEq] at he
    obtain ⟨rfl, rfl⟩ := he
    exact ⟨le_refl _, .inl ⟨s, rfl, lists_map hpre hf ▸ hi⟩⟩
  | l :: ls, pre, s, st, M, Mf, hi, hpre, hf, hne, t, r, t', he => by
    have hmem : ∀ x ∈ pre ++ l :: ls, Mf x.name = some (x.tsize, x.target) := fun x hx => lists_mem hf hx
    have hln : l.name ≠ [] := by
      intro h
      have := hmem l (by simp)
      rw [h, hne] at this; cases this
    have hfresh : M l.name = none := by
      cases hm : M l.name with
      | none => rfl
      | some v =>
        rw [hpre.2] at hm
        have h1 := hf.1
        rw [List.map_append, List.nodup_append] at h1
        exact absurd rfl (h1.2.2 l.name (List.mem_map.mpr ⟨_, hm, rfl⟩) l.name (List.mem_map_of_mem List.mem_cons_self))
    have hsub : ∀ k, M k ≠ none → Mf k ≠ none := by
      intro k hk
      obtain ⟨v, hv⟩ := Option.ne_none_iff_exists'.mp hk
      rw [hpre.2] at hv
      have := hmem _ (List.mem_append_left _ hv)
      simp only [Link.name] at this
      rw [this]; simp
    rw [Basic.setLinks, Shard.setLinkOp] at he
    generalize hs : Shard.swapValue env.H env.net (Shard.fuel env.H l.name) s 0 l.name (some (Link.rename l (linkNamePrefix s.size 0 ++ l.name))) t = out at he
    obtain ⟨r1, s1, t1⟩ := out
    obtain ⟨hm, h1⟩ := sset hp env.net hi l.name hln _ rfl t hs
    rcases h1 with ⟨lo, rfl, h2, h3, h4⟩ | ⟨h4, h5⟩
    · dsimp only at he
      have hpre' : Lists (M.upd l.name (some (linkVal l))) (pre ++ [l]) := by
        have := lists_snoc hpre hfresh (linkVal l)
        cases l; exact this
      obtain ⟨hm2, h6⟩ := setLinks_spec hp ls (pre ++ [l]) h4 hpre' (by simpa using hf) hne t1 he
      refine ⟨le_trans hm hm2, ?_⟩
      rcases h6 with h6 | h6 | ⟨h6, h7⟩
      · exact .inl h6
      · exact .inr (.inl h6)
      · exact .inr (.inr ⟨h6, h7.mono hm (le_refl _)⟩)
    · rcases h5 with ⟨rfl, _, k', h6, h7, h8⟩ | ⟨rfl, h6⟩
      · simp only [Prod.mk.injEq] at he
        obtain ⟨rfl, rfl⟩ := he
        refine ⟨hm, .inr (.inl ⟨rfl, l.name, k', ?_, hsub _ h6, Ne.symm h7, h8⟩)⟩
        rw [hmem l (by simp)]; simp
      · simp only [Prod.mk.injEq] at he
        obtain ⟨rfl, rfl⟩ := he
        exact ⟨hm, .inr (.inr ⟨rfl, h6⟩)⟩

theorem toHamt_spec {env : Env} (hp : HP env.H lg) (hw : env.width = ((2 ^ lg : Nat) : Int)) {d : Basic} {M : NMap} (hi : BInv d M) (hne : M [] = none)
    (hb : ∀ b0, bo = some b0 → pbBuilder (some d.builder) = b0) (st : List Node) (t : Nat)
    {r : Except Err HamtDir} {t' : Nat} (he : d.switchToSharding env t = (r, t')) :
    t ≤ t' ∧ ((∃ h, r = .ok h ∧ h.sizeChange = 0 ∧ SInv env.H lg bo h.shard st M) ∨
      (r = .error .tooDeep ∧ ∃ k1 k2, M k1 ≠ none ∧ M k2 ≠ none ∧ k1 ≠ k2 ∧ Collide env.H lg k1 k2) ∨ (r = .error .notFound ∧ FetchFailed env.net t t')) := by
  rw [Basic.switchToSharding, hw, newShard, makeShard_valid hp.valid] at he
  dsimp only [Shard.setCidBuilder] at he
  have hnew : SInv env.H lg bo (.mk (2 ^ lg) (bfNew (2 ^ lg)) [] (some d.builder) [] none) st (fun _ => none) := SInv.of (inv_new hp (some d.builder) 0 st) (fun b0 h => ⟨hb b0 h, canon_nil _ _⟩)
  generalize hs : Basic.setLinks env d.links (Shard.mk (2 ^ lg) (bfNew (2 ^ lg)) [] (some d.builder) [] none) t = out at he
  obtain ⟨r1, t1⟩ := out
  obtain ⟨hm, h1⟩ := setLinks_spec hp d.links [] hnew lists_nil (by simpa using hi.lists) hne t hs
  rcases h1 with ⟨s', rfl, h1⟩ | ⟨rfl, h1⟩ | ⟨rfl, h1⟩
  · simp only [Prod.mk.injEq] at he
    obtain ⟨rfl, rfl⟩ := he
    exact ⟨hm, .inl ⟨_, rfl, rfl, h1⟩⟩
  · simp only [Prod.mk.injEq] at he
    obtain ⟨rfl, rfl⟩ := he
    exact ⟨hm, .inr (.inl ⟨rfl, h1⟩)⟩
  · simp only [Prod.mk.injEq] at he
    obtain ⟨rfl, rfl⟩ := he
    exact ⟨hm, .inr (.inr ⟨rfl, h1⟩)⟩

end Unixfs.Dir
