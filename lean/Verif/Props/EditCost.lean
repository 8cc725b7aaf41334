import Verif.Props.EditRange
import Verif.Props.Append
import Verif.Mod.Cost

/-! # C93: what an edit costs depends on its range and the height of the file

A write stores the root, one block on each level for each leaf it writes to, and, if it extends the
file, two blocks for each new chunk and one on each level. The size of the file does not matter. -/

namespace Unixfs.Props
open Unixfs Unixfs.Import Unixfs.Spec Unixfs.Mod

variable {env : Env} {root : Node} {c : Bytes}

/-- `Write`, `Sync` and `GetNode` within a file. -/
theorem write_costs {dm : DM} (hs : SizesTrue dm.cur) (hc : content dm.cur = some c) (hl : c.length < 2 ^ 63)
    (hb : dm.buf = none) {b : Bytes} (hne : b ≠ []) (ho : dm.ws.toNat ≤ c.length)
    (hok : ∀ r ∈ (dm.run env [.write b, .sync, .getNode]).1, r.err = none)
    (hcl : ∀ dm', DM.sync env { dm with read := none, buf := some b, cw := dm.cw + UInt64.ofNat b.length } = (.ok (), dm') → dm'.buf = none) :
    (dm.run env [.write b, .sync, .getNode]).2.svc.stored.length ≤
      dm.svc.stored.length + (1 + height dm.cur * touched dm.cur dm.ws.toNat (dm.ws.toNat + b.length) +
      (if dm.ws.toNat + b.length ≤ c.length then 0
       else 2 * (env.split (b.drop (c.length - dm.ws.toNat))).1.length + height dm.cur + 1)) ∧
    (dm.ws.toNat + b.length ≤ c.length → (dm.run env [.write b, .sync, .getNode]).2.svc.tick ≤
      dm.svc.tick + (2 + 2 * (height dm.cur * touched dm.cur dm.ws.toNat (dm.ws.toNat + b.length)))) := by
  have hcost := fun r dm' => sync_costs (env := env) (r := r) (dm' := dm') (dm := { dm with read := none, buf := some b, cw := dm.cw + UInt64.ofNat b.length }) rfl hs hc hl ho hne
  have hR : ∀ dm' r, DM.sync env { dm with read := none, buf := some b, cw := dm.cw + UInt64.ofNat b.length } = (r, dm') →
      (∀ e, r = .error e → ∃ x ∈ (dm.run env [.write b, .sync, .getNode]).1, x.err = some e) ∧
      (r = .ok () → dm'.buf = none → (dm.run env [.write b, .sync, .getNode]).2 = dm') := by
    intro dm' r hsy
    by_cases hw : b.length > env.wbuf
    · have hwr : dm.step env (.write b) = (match (generalizing := false) r with | .error e => ({ err := some e }, dm') | .ok () => ({ n := b.length }, dm')) := by
        simp only [DM.step, DM.write, hb, Option.getD_none, List.nil_append]
        rw [if_pos hw, hsy]
        cases r <;> rfl
      rw [DM.run, hwr]
      refine ⟨?_, ?_⟩
      · rintro e rfl
        exact ⟨{ err := some e }, by simp, rfl⟩
      · rintro rfl h2
        simp only [DM.run, DM.step, sync_clean h2, DM.getNode]
    · have hwr : dm.step env (.write b) = ({ n := b.length }, { dm with read := none, buf := some b, cw := dm.cw + UInt64.ofNat b.length }) := by
        simp only [DM.step, DM.write, hb, Option.getD_none, List.nil_append]
        rw [if_neg hw]
        rfl
      rw [DM.run, hwr]
      refine ⟨?_, ?_⟩
      · rintro e rfl
        simp only [DM.run]
        rw [show DM.step env { dm with read := none, buf := some b, cw := dm.cw + UInt64.ofNat b.length } .sync = ({ err := some e }, dm') by
          simp only [DM.step, hsy]; rfl]
        exact ⟨{ err := some e }, by simp, rfl⟩
      · rintro rfl h2
        simp only [DM.run, DM.step, hsy, sync_clean h2, DM.getNode]
  generalize hsy : DM.sync env { dm with read := none, buf := some b, cw := dm.cw + UInt64.ofNat b.length } = R at hcost hR hcl
  obtain ⟨r, dm'⟩ := R
  have hR := hR dm' r rfl
  cases r with
  | error e =>
    obtain ⟨x, hx, he⟩ := hR.1 e rfl
    rw [hok x hx] at he; cases he
  | ok u =>
    have h := hcost (.ok u) dm' rfl
    rw [hR.2 rfl (hcl dm' rfl)]
    exact h

/-- C93: a write that begins within the file, with all calls successful, stores at most one block for
the root, one on each level for each leaf with bytes in the range, and, if it ends beyond the end, two
for each new chunk, one on each level, and the new root. -/
theorem C93_write (hsp : SplitOK env) (hs : SizesTrue root) (hc : content root = some c) (hl : c.length < 2 ^ 63)
    (off : Int64) (h0 : 0 ≤ off.toInt) (ho : off.toInt ≤ c.length) (b : Bytes) (hne : b ≠ []) (hg : Ext root ∨ off.toInt.toNat + b.length ≤ c.length)
    (hok : ∀ r ∈ results env root [.seek off 0, .write b, .sync, .getNode], r.err = none) :
    (storedBy env root [.seek off 0, .write b, .sync, .getNode]).length ≤
      1 + height root * touched root off.toInt.toNat (off.toInt.toNat + b.length) +
      (if off.toInt.toNat + b.length ≤ c.length then 0
       else 2 * (env.split (b.drop (c.length - off.toInt.toNat))).1.length + height root + 1) ∧
    (off.toInt.toNat + b.length ≤ c.length → requestsBy env root [.seek off 0, .write b, .sync, .getNode] ≤
      2 + 2 * (height root * touched root off.toInt.toNat (off.toInt.toNat + b.length))) := by
  have hu : (u64 off.toInt).toNat = off.toInt.toNat := u64_toNat h0 (by omega)
  obtain ⟨dm, hnew, hcur, hbuf, hrd, hsv⟩ : ∃ dm, newDagModifier root = .ok dm ∧ dm.cur = root ∧ dm.buf = none ∧ dm.read = none ∧ dm.svc = {} := by
    cases root with
    | raw d b => exact ⟨_, rfl, rfl, rfl, rfl, rfl⟩
    | other d => exact hs.elim
    | proto d ls b => exact ⟨_, rfl, rfl, rfl, rfl, rfl⟩
  subst hcur
  simp only [results, storedBy, requestsBy, hnew] at hok ⊢
  rw [DM.run, DM.step, seek_new (c := c) (new := u64 off.toInt) hs hc hl hbuf hrd rfl (by rw [hu]; omega)] at hok ⊢
  dsimp only at hok ⊢
  have h := write_costs (env := env) (dm := { dm with cw := u64 off.toInt, ws := u64 off.toInt }) hs hc hl hbuf (b := b) hne
    (by dsimp only; rw [hu]; omega) (fun r hr => hok r (by simp [hr])) (fun dm' hsy => by
      have hspec := sync_spec env hsp { dm with cw := u64 off.toInt + UInt64.ofNat b.length, ws := u64 off.toInt, read := none, buf := some b } b rfl hs hc hl
        (by dsimp only; omega) (by dsimp only; rw [hu]; exact hg)
      rw [hsy] at hspec
      obtain ⟨-, -, -, h2, -⟩ := hspec
      exact h2)
  dsimp only at h
  have hs1 : dm.svc.stored.length = 0 := by rw [hsv]; rfl
  have hs2 : dm.svc.tick = 0 := by rw [hsv]
  rw [hu, hs1, hs2, Nat.zero_add, Nat.zero_add] at h
  exact h

/-- Two bytes written over the end of a file of two leaves of five bytes: one leaf has bytes in the range. -/
example : (storedBy wEnv wTen [.seek 9 0, .write [1, 2], .sync, .getNode]).length ≤ 1 + 1 * 1 + (2 * 1 + 1 + 1) :=
  le_trans (C93_write wEnv_ok.1 wTen_sizes wTen_content (by decide) 9 (by decide) (by decide) [1, 2] (by decide) (.inl wTen_ext) (by decide +kernel)).1
    (by decide +kernel)

/-- C93 for a write within the file. -/
theorem C93_overwrite (hsp : SplitOK env) (hs : SizesTrue root) (hc : content root = some c) (hl : c.length < 2 ^ 63)
    (off : Int64) (h0 : 0 ≤ off.toInt) (b : Bytes) (hne : b ≠ []) (ho : off.toInt + b.length ≤ c.length)
    (hok : ∀ r ∈ results env root [.seek off 0, .write b, .sync, .getNode], r.err = none) :
    (storedBy env root [.seek off 0, .write b, .sync, .getNode]).length ≤
      1 + height root * touched root off.toInt.toNat (off.toInt.toNat + b.length) ∧
    requestsBy env root [.seek off 0, .write b, .sync, .getNode] ≤
      2 + 2 * (height root * touched root off.toInt.toNat (off.toInt.toNat + b.length)) := by
  have h := C93_write hsp hs hc hl off h0 (by omega) b hne (.inr (by omega)) hok
  rw [if_pos (by omega)] at h
  exact ⟨h.1, h.2 (by omega)⟩

/-- One byte: exactly the leaf and the root are stored, and with fetching the leaf and the new root there
are four requests. -/
example : (storedBy wEnv wTen [.seek 6 0, .write [1], .sync, .getNode]).length ≤ 2 ∧ requestsBy wEnv wTen [.seek 6 0, .write [1], .sync, .getNode] ≤ 4 :=
  have h := C93_overwrite wEnv_ok.1 wTen_sizes wTen_content (by decide) 6 (by decide) [1] (by decide) (by decide) (by decide +kernel)
  ⟨le_trans h.1 (by decide +kernel), le_trans h.2 (by decide +kernel)⟩

example : (storedBy wEnv wTen [.seek 6 0, .write [1], .sync, .getNode]).length = 2 ∧ requestsBy wEnv wTen [.seek 6 0, .write [1], .sync, .getNode] = 4 := by
  decide +kernel

/-- No leaf has bytes beyond the end of the file. -/
theorem overlapping_past (xs : List Node) (s a b : Nat) (h : s + (xs.map contentLen).sum ≤ a) : overlapping xs s a b = 0 := by
  induction xs generalizing s with
  | nil => rfl
  | cons x xs ih =>
    simp only [List.map_cons, List.sum_cons] at h
    rw [overlapping, if_neg (by omega), ih _ (by omega)]

/-- C93 for a write at the end of the file. -/
theorem C93_append (hsp : SplitOK env) (hs : SizesTrue root) (hc : content root = some c) (hl : c.length < 2 ^ 63) (hg : Ext root)
    (off : Int64) (ho : off.toInt = c.length) (b : Bytes) (hne : b ≠ [])
    (hok : ∀ r ∈ results env root [.seek off 0, .write b, .sync, .getNode], r.err = none) :
    (storedBy env root [.seek off 0, .write b, .sync, .getNode]).length ≤ 2 * (env.split b).1.length + height root + 2 := by
  have h := (C93_write hsp hs hc hl off (by omega) (by omega) b hne (.inl hg) hok).1
  have hp := List.length_pos_iff.mpr hne
  rw [if_neg (by omega), touched, overlapping_past _ _ _ _ (by rw [leaves_sum root c hs hc]; omega), Nat.mul_zero,
    show c.length - off.toInt.toNat = 0 by omega, List.drop_zero] at h
  omega

/-- One more chunk: the old root again, the leaf and the new root are stored. -/
example : (storedBy wEnv wTen [.seek 10 0, .write [1, 2], .sync, .getNode]).length ≤ 5 :=
  le_trans (C93_append wEnv_ok.1 wTen_sizes wTen_content (by decide) wTen_ext 10 (by decide) [1, 2] (by decide) (by decide +kernel)) (by decide +kernel)

/-- C93 for `Truncate`: one block on each level, however much is cut off. -/
theorem C93_truncate (hs : SizesTrue root) (hc : content root = some c) (hl : c.length < 2 ^ 63)
    (s : Int64) (h0 : 0 ≤ s.toInt) (hlt : s.toInt < c.length) :
    (storedBy env root [.truncate s, .getNode]).length ≤ height root + 1 := by
  obtain ⟨dm, hnew, hcur, hbuf, hrd, hsv⟩ : ∃ dm, newDagModifier root = .ok dm ∧ dm.cur = root ∧ dm.buf = none ∧ dm.read = none ∧ dm.svc = {} := by
    cases root with
    | raw d b => exact ⟨_, rfl, rfl, rfl, rfl, rfl⟩
    | other d => exact hs.elim
    | proto d ls b => exact ⟨_, rfl, rfl, rfl, rfl, rfl⟩
  subst hcur
  simp only [storedBy, hnew]
  have hfs : s64 (UInt64.ofNat c.length) = c.length := by
    rw [s64_of] <;> rw [UInt64.toNat_ofNat', Nat.mod_eq_of_lt (by omega)]
    exact hl
  have hsz : dm.size = .ok (c.length : Int) := by
    rw [DM.size, fileSize_true hs hc]
    dsimp only
    rw [hbuf]
    dsimp only
    rw [hfs]
  simp only [DM.run, DM.step, DM.truncate]
  rw [sync_clean hbuf]
  dsimp only
  rw [hsz]
  dsimp only
  rw [if_neg (by omega), if_neg (by omega)]
  have hT := dagTruncate_costs env dm.cur (u64 s.toInt) dm.svc
  generalize dagTruncate env dm.cur (u64 s.toInt) dm.svc = R at hT ⊢
  obtain ⟨r, s1⟩ := R
  have hT := hT _ _ rfl
  rw [hsv] at hT
  simp only [List.length_nil, Nat.zero_add] at hT
  cases r with
  | error e =>
    dsimp only
    rw [DM.getNode, sync_clean (by exact hbuf)]
    dsimp only
    omega
  | ok k =>
    dsimp only
    rcases hadd : s1.add env k with ⟨q, s2⟩
    have := (add_costs hadd).1
    cases q with
    | error e =>
      dsimp only
      rw [DM.getNode, sync_clean (by exact hbuf)]
      dsimp only
      omega
    | ok u =>
      dsimp only
      rw [DM.getNode, sync_clean (by exact hbuf)]
      dsimp only
      omega

/-- Cut to three bytes: the leaf and the root are stored. -/
example : (storedBy wEnv wTen [.truncate 3, .getNode]).length ≤ 2 :=
  le_trans (C93_truncate wTen_sizes wTen_content (by decide) 3 (by decide) (by decide)) (by decide +kernel)

example : (storedBy wEnv wTen [.truncate 3, .getNode]).length = 2 := by decide +kernel

/-- C93 for `trickle.Append`: two blocks for each chunk and one on each level of the base. -/
theorem C93_trickle_append {p : Params} {path : Option Bytes} {chunks : List Bytes} {fin : Option Err} {budget : Option Nat} {db db' : DB} {fuel h : Nat}
    {g : Node → Bool} {base n : Node} (hf : Fresh p path chunks fin budget db) (h1 : 1 ≤ p.maxlinks)
    (hr : Trickle.append fuel h base { db with canGet := g } = .ok (n, db')) : db'.added.length ≤ 2 * chunks.length + height base := by
  obtain ⟨hi, hp, hm, _, _, _, ha, _⟩ := Fresh.facts hf
  have := (Trickle.append_paid (db := { db with canGet := g }) hi (show 0 < db.maxlinks by omega) hr).le
  unfold Trickle.due at this
  have h2 : ({ db with canGet := g } : DB).pend = chunks := hp
  rw [h2] at this
  simp only [ha, List.length_nil] at this
  omega

/-- Five chunks appended to a base of height 2. -/
example : ∃ base n db', Trickle.append 9 9 base { exAppDB with canGet := fun _ => true } = .ok (n, db') ∧ db'.added.length ≤ 2 * 5 + 2 := by
  obtain ⟨base, n, db', h⟩ := exApp
  have := C93_trickle_append exAppFresh (by decide) h.run
  rw [h.height] at this
  exact ⟨base, n, db', h.run, this⟩

/-! ### Files cut into chunks of equal size -/

/-- Leaves of at least `k` bytes each, perhaps except the last: at most two more than fit into the range
have bytes in it. -/
theorem overlapping_le {k : Nat} (xs : List Node) (s a b : Nat) (hs : a ≤ s) (hx : ∀ x ∈ xs.dropLast, k ≤ contentLen x) :
    k * (overlapping xs s a b - 1) ≤ b - s := by
  induction xs generalizing s with
  | nil => simp [overlapping]
  | cons x xs ih =>
    rw [overlapping]
    cases xs with
    | nil => simp only [overlapping]; split <;> simp
    | cons y ys =>
      have h1 := ih (s + contentLen x) (by omega) (fun z hz => hx z (by rw [List.dropLast_cons_cons]; exact List.mem_cons_of_mem _ hz))
      have h2 : k ≤ contentLen x := hx x (by simp)
      split
      · rename_i hin
        generalize hO : overlapping (y :: ys) (s + contentLen x) a b = O at h1 ⊢
        by_cases hb : s + contentLen x < b
        · cases O with
          | zero => simp
          | succ O =>
            rw [show 1 + (O + 1) - 1 = O + 1 by omega, Nat.mul_add, Nat.mul_one]
            simp only [Nat.add_sub_cancel] at h1
            omega
        · have : O = 0 := by
            rw [← hO]
            clear hO h1 ih hx
            generalize y :: ys = zs
            generalize hS : s + contentLen x = S at hb
            clear hS
            induction zs generalizing S with
            | nil => rfl
            | cons z zs ih => rw [overlapping, if_neg (by omega), ih _ (by omega)]
          subst this; simp
      · rw [Nat.zero_add]; omega

theorem touched_le {n : Node} {k : Nat} (hk : 0 < k) (hx : ∀ x ∈ (leaves n).dropLast, k ≤ contentLen x) {a b : Nat} (h : a ≤ b) :
    touched n a b ≤ (b - a) / k + 2 := by
  unfold touched
  suffices hh : ∀ (xs : List Node) (s : Nat), (∀ x ∈ xs.dropLast, k ≤ contentLen x) → overlapping xs s a b ≤ (b - a) / k + 2 from hh _ _ hx
  intro xs
  induction xs with
  | nil => intro s _; simp [overlapping]
  | cons x xs ih =>
    intro s hx
    rw [overlapping]
    have hx' : ∀ z ∈ xs.dropLast, k ≤ contentLen z := by
      intro z hz
      cases xs with
      | nil => simp at hz
      | cons y ys => exact hx z (by rw [List.dropLast_cons_cons]; exact List.mem_cons_of_mem _ hz)
    split
    · rename_i hin
      have h1 := overlapping_le xs (s + contentLen x) a b (by omega) hx'
      have h2 : overlapping xs (s + contentLen x) a b - 1 ≤ (b - a) / k :=
        (Nat.le_div_iff_mul_le hk).mpr (by rw [Nat.mul_comm]; omega)
      omega
    · rw [Nat.zero_add]; exact ih _ hx'

theorem heightL_le {d : Nat} : ∀ {ls : List Link}, (∀ l ∈ ls, height l.target ≤ d) → heightL ls ≤ d + 1
  | [], _ => by simp [heightL]
  | .mk nm sz n :: ls, h => by
    have h1 : height n ≤ d := h (.mk nm sz n) (by simp)
    have h2 := heightL_le (ls := ls) (fun l hl => h l (by simp [hl]))
    simp only [heightL]; omega

theorem height_links {n : Node} : height n = heightL n.links := by
  cases n <;> simp [height, Node.links, heightL]

theorem fullAt_height {m d : Nat} : ∀ {n : Node}, FullAt m d n → height n ≤ d := by
  induction d with
  | zero => intro n h; rw [height_links, show n.links = [] from h]; simp [heightL]
  | succ d ih =>
    intro n h
    obtain ⟨h1, h2⟩ := h
    rw [height_links]
    exact heightL_le (fun l hl => ih (h2 l hl))

theorem balancedAt_height {m d : Nat} : ∀ {n : Node}, BalancedAt m d n → height n ≤ d := by
  induction d with
  | zero => intro n h; rw [height_links, show n.links = [] from h]; simp [heightL]
  | succ d ih =>
    intro n h
    obtain ⟨pre, last, h1, h2, h3, h4⟩ := h
    rw [height_links, h1]
    refine heightL_le (fun l hl => ?_)
    rcases List.mem_append.mp hl with h | h
    · exact fullAt_height (h3 l h)
    · rw [List.mem_singleton.mp h]; exact ih h4

theorem leafFor_len {p : Params} {t : UInt32} (ht : t = TFile ∨ t = TRaw) {n : Node} {x : Bytes} (h : LeafFor p t n x) : contentLen n = x.length := by
  unfold LeafFor at h
  split at h
  · subst h; rfl
  · obtain ⟨d, m, rfl, hm, rfl⟩ := h
    apply contentLen_of
    rcases ht with rfl | rfl <;> simp [content, hm, IsFileMsg]

/-- C93 for a file that `balanced.Layout` made of at most `maxlinks ^ h` chunks, all but the last of at
least `k` bytes: overwriting `l` bytes stores at most `1 + h * (l / k + 2)` blocks. -/
theorem C93_balanced {p : Params} {path : Option Bytes} {chunks : List Bytes} {fin : Option Err} {budget : Option Nat} {db db' : DB} {fuel h k : Nat} {r : Built}
    (hf : Fresh p path chunks fin budget db) (h2 : 2 ≤ p.maxlinks) (hlay : Balanced.layout fuel db = .ok (r, db')) (hh : chunks.length ≤ p.maxlinks ^ h)
    (hk : 0 < k) (hch : ∀ x ∈ chunks.dropLast, k ≤ x.length) (hsp : SplitOK env) (hl : chunks.flatten.length < 2 ^ 63)
    (off : Int64) (h0 : 0 ≤ off.toInt) (b : Bytes) (hne : b ≠ []) (ho : off.toInt + b.length ≤ chunks.flatten.length)
    (hok : ∀ x ∈ results env r.node [.seek off 0, .write b, .sync, .getNode], x.err = none) :
    (storedBy env r.node [.seek off 0, .write b, .sync, .getNode]).length ≤ 1 + h * (b.length / k + 2) ∧
    requestsBy env r.node [.seek off 0, .write b, .sync, .getNode] ≤ 2 + 2 * (h * (b.length / k + 2)) := by
  have hs := C08_balanced_sizes hf h2 hlay
  have hc := C06_balanced_content hf h2 hlay
  have hpos := List.length_pos_iff.mpr hne
  have hcne : chunks ≠ [] := by rintro rfl; simp at ho; omega
  obtain ⟨d, hd, hmin⟩ := C09_balanced_shape hf h2 hlay
  have hd' := hmin h hh
  have hleaf := (C15_balanced_kind hf h2 hcne hlay).1
  have hlv : ∀ x ∈ (leaves r.node).dropLast, k ≤ contentLen x := by
    generalize leaves r.node = xs at hleaf
    clear hok ho hs hc hlay hd hmin hcne hh hf hl
    induction hleaf with
    | nil => simp
    | @cons x y xs ys hxy hrest ih =>
      cases hrest with
      | nil => simp
      | cons hz hrest' =>
        intro z hz'
        rw [List.dropLast_cons_cons] at hz' hch
        rcases List.mem_cons.mp hz' with rfl | hz'
        · rw [leafFor_len (.inl rfl) hxy]; exact hch _ (by simp)
        · exact ih (fun w hw => hch w (List.mem_cons_of_mem _ hw)) z hz'
  have hcost := C93_overwrite hsp hs hc hl off h0 b hne ho hok
  have ht := touched_le hk hlv (a := off.toInt.toNat) (b := off.toInt.toNat + b.length) (by omega)
  rw [Nat.add_sub_cancel_left] at ht
  have hm : height r.node * touched r.node off.toInt.toNat (off.toInt.toNat + b.length) ≤ h * (b.length / k + 2) :=
    Nat.mul_le_mul (le_trans (balancedAt_height hd) hd') ht
  exact ⟨by omega, by omega⟩

/-- Two leaves of five bytes each, six bytes written. -/
example : ∃ r db', Balanced.layout 5 { maxlinks := defaultLinksPerBlock, src := [[48, 49, 50, 51, 52], [53, 54, 55, 56, 57]] } = .ok (r, db') ∧
    (storedBy wEnv r.node [.seek 2 0, .write [1, 2, 3, 4, 5, 6], .sync, .getNode]).length ≤ 1 + 1 * (6 / 5 + 2) := by
  obtain ⟨r, db', h, hr⟩ := wTen_made
  refine ⟨r, db', h, (C93_balanced (h := 1) (k := 5) wTen_ok (by decide) h (by decide) (by decide) (by decide) wEnv_ok.1 (by decide) 2 (by decide) [1, 2, 3, 4, 5, 6]
    (by decide) (by decide) ?_).1⟩
  rw [hr]; decide +kernel

end Unixfs.Props
