import Verif.Spec.Export
import Verif.Props.OneTree
import Verif.Props.KeptTree

/-!
# C119, C120: copying a tree out gives the tree

The definitions in this file belong to proofs; they model no code.
-/

namespace Unixfs.Props
open Unixfs.Hamt hiding exec execAll results NoEmptyName lastWrite Cfg
open Unixfs.Dir Unixfs.File Unixfs.Spec
open Unixfs.Import hiding Cfg

variable {H : Hash} {net : Net} {t : Nat} {tr tr' : Tree} {nd : Node} {f : FileNode}

theorem opens_file {x : Node} (hs : SizesTrue nd) (h : Opens nd x) : x = nd := by
  cases h with
  | raw => rfl
  | file => rfl
  | metadata d l ls b m _ hm ht _ _ =>
    obtain ⟨m', hm', hf, _⟩ := hs
    rw [hm] at hm'; cases hm'
    rcases hf with hf | hf <;> · rw [ht] at hf; cases hf

theorem cut_end {c : Bytes} : ∀ (ks : List Nat) (rs : List Res) (r : Res) (p q : Nat), CutRun c p (ks.map .read) (rs ++ [r]) q → (∀ k ∈ ks, 0 < k) → r.err = some .eof →
    c.length ≤ q
  | [], rs, r, p, q, h, _, _ => by
    generalize hx : rs ++ [r] = x at h
    cases h
    simp at hx
  | k :: ks, rs, r, p, q, h, hk, he => by
    rw [List.map_cons] at h
    cases rs with
    | nil =>
      cases h with
      | cons h1 h2 =>
        have hks : ks = [] := by cases ks with | nil => rfl | cons _ _ => simp at h2; cases h2
        subst hks
        cases h2
        cases h1 with
        | whole h =>
          cases h with
          | read _ _ =>
            dsimp only at he
            split at he
            · rename_i h; simp; omega
            · cases he
          | read0 => exact absurd (hk 0 (by simp)) (by simp)
        | read => cases he
    | cons r' rs =>
      cases h with
      | cons h1 h2 => exact cut_end ks rs r _ q h2 (fun k hk' => hk k (by simp [hk'])) he

/-- What trees in the published format and trees made and edited with this library have in common. -/
inductive Stands (H : Hash) : Tree → Node → Prop
  | file {c : Bytes} {nd : Node} : SizesTrue nd → content nd = some c → c.length < 2 ^ 63 → Stands H (.file c) nd
  | symlink {target : Bytes} {nd : Node} : (∃ data ls b m, nd = .proto data ls b ∧ Pb.Data.unmarshal data = .ok m ∧ m.typ = some TSymlink ∧ m.data.getD [] = target) →
      Stands H (.symlink target) nd
  | dir {es : List (Bytes × Tree)} {nd : Node} {d : Dir} {W : Nat → Prop} {st : List Node} {M : NMap} : newDirectoryFromNode nd = .ok d →
      (∀ env : Env, env.H = H → DInv env W none d st M) → (∀ k, (List.lookup k es).isSome = (M k).isSome) →
      (∀ k t v, List.lookup k es = some t → M k = some v → Stands H t v.2) → Stands H (.dir es) nd

theorem Stands.file_inv {c : Bytes} (h : Stands H (.file c) nd) : SizesTrue nd ∧ content nd = some c ∧ c.length < 2 ^ 63 := by
  cases h with
  | file h1 h2 h3 => exact ⟨h1, h2, h3⟩

theorem stands_form (hH : ∀ k, (H k).length = 8) : ∀ {tr : Tree} {nd : Node}, TreeForm H tr nd → Stands H tr nd := by
  have go : ∀ (n : Nat) (tr : Tree) (nd : Node), sizeOf tr ≤ n → TreeForm H tr nd → Stands H tr nd := by
    intro n
    induction n with
    | zero => intro tr _ hn; cases tr <;> simp at hn
    | succ n ih =>
      intro tr nd hn h
      have hfull := h
      cases tr with
      | file c => obtain ⟨h1, _, h2, h3⟩ := file_facts h; exact .file h1 h2 h3
      | symlink x => exact .symlink ((C52_symlink x).mp (C114_open (net := allNet) (t := 0) hH h (fun _ _ _ => rfl)))
      | dir ts =>
        cases h with
        | @dir lg b es0 _ _ hlo hhi hb h hu hne' hnames hsub =>
          obtain ⟨d', st, h4, h5, _⟩ := published_dir hH hlo hhi hb h hu hne'
          obtain ⟨hes, hsub⟩ := tree_entries hu hnames hsub
          refine .dir (W := (· = lg)) (st := st) h4 (fun env hHe => ?_) hes (fun k t v h1 h2 => ?_)
          · rw [DInv.eq_def, show (calmEnv H).H = H from rfl] at h5
            rw [DInv.eq_def, hHe]
            exact h5
          · have := lookup_sizeOf h1
            simp only [Tree.dir.sizeOf_spec] at hn
            exact ih t _ (by omega) (hsub k t v h1 h2)
  exact fun {tr nd} h => go _ tr nd (Nat.le_refl _) h

theorem stands_kept {S : List Node} (h : KeptTree H S tr nd) : Stands H tr nd := by
  induction h with
  | file h => obtain ⟨h1, h2, h3, _⟩ := kept_facts h; exact .file h1 h2 h3
  | symlink hl h => exact .symlink ⟨_, _, _, _, rfl, symlink_unmarshal hl h, rfl, rfl⟩
  | dir h hes _ ih =>
    obtain ⟨⟨d, h1, h2⟩, _⟩ := keptDir_facts h
    exact .dir h1 h2 hes ih

/-- What opening gives, whatever the network does. -/
theorem export_kind (h : Stands H tr nd) (hf : newUnixfsFile net t nd = .ok f) :
    match tr, f with
    | .file _, .file dr => newDagReader net t nd = .ok dr
    | .symlink target, .symlink target' => target = target'
    | .dir _, .dir d _ => newDirectoryFromNode nd = .ok d
    | _, _ => False := by
  cases h with
  | file h1 h2 h3 =>
    obtain ⟨dr, o, _⟩ := C52_file_content (net := allNet) (t := 0) (fun _ _ _ => rfl) (opens_self h1) h1 h2 h3 [] (by intro w hw; simp at hw)
    cases f with
    | file dr => exact (C52_file dr).mp hf
    | symlink x => rw [(C52_symlink x).mpr ((C52_symlink x).mp hf)] at o; cases o
    | dir d n => rw [(C52_dir d n).mpr ((C52_dir d n).mp hf)] at o; cases o
  | symlink h =>
    rw [(C52_symlink _).mpr h] at hf
    cases hf; rfl
  | dir h _ _ _ =>
    rw [(C52_dir _ _).mpr ⟨h, rfl⟩] at hf
    cases hf; exact h

theorem forEach_st {env : Env} (c : Dir.Cfg) (st : List Node) : linksAndError env { c with st := st } = linksAndError env c := by
  simp only [linksAndError, forEachLink]
  cases c.dir <;> rfl

/-- What going through the links of a directory gives. -/
theorem export_links' {ts : List (Bytes × Tree)} (h : Stands H (.dir ts) nd) {d : Dir} (hd : newDirectoryFromNode nd = .ok d) {env : Env} {c : Dir.Cfg}
    (hHe : env.H = H) (hc : c.dir = d) :
    ((linksAndError env c).2 = none →
      ((linksAndError env c).1.map Link.name).Nodup ∧ (∀ k, k ∈ (linksAndError env c).1.map Link.name ↔ (ts.lookup k).isSome) ∧
      ∀ l ∈ (linksAndError env c).1, ∀ tr', ts.lookup l.name = some tr' → Stands H tr' l.target) ∧
    (env.Works → (linksAndError env c).2 = none) := by
  cases h with
  | @dir _ _ d' W st M h4 h5 hes hsub =>
    rw [hd] at h4; cases h4
    have h6 : DInv env W none ({ c with st := st } : Cfg).dir ({ c with st := st } : Cfg).st M := by
      dsimp only
      rw [hc]; exact h5 env hHe
    obtain ⟨M'', _, hs, _⟩ := forEach_spec h6 (fun _ => false)
    rw [← forEach_st c st]
    rw [linksAndError]
    dsimp only
    simp only [exec] at hs
    generalize forEachLink env { c with st := st } (fun _ => false) = R at hs ⊢
    obtain ⟨ls, e, c'⟩ := R
    dsimp only at hs ⊢
    generalize hx : DRes.list ls e = x at hs
    cases hs with
    | each h _ =>
      cases hx
      refine ⟨fun _ => ⟨h.1, fun k => ?_, fun l hl tr' htr => ?_⟩, fun _ => rfl⟩
      · rw [hes k, Option.isSome_iff_exists]
        constructor
        · rintro hk
          obtain ⟨l, hl, rfl⟩ := List.mem_map.mp hk
          cases l with
          | mk n s x => exact ⟨(s, x), (h.2 n (s, x)).mpr hl⟩
        · rintro ⟨v, hv⟩
          exact List.mem_map.mpr ⟨_, (h.2 k v).mp hv, rfl⟩
      · cases l with
        | mk n s x => exact hsub n tr' (s, x) htr ((h.2 n (s, x)).mpr hl)
    | eachStop _ _ h => cases h
    | eachFail _ _ he =>
      cases hx
      refine ⟨fun h => (by cases h), fun hwe => ?_⟩
      exfalso
      cases he with
      | fetch h => obtain ⟨u, x, _, _, h⟩ := h; rw [hwe.net] at h; cases h
      | add h => obtain ⟨u, _, _, h⟩ := h; rw [hwe.ref] at h; cases h
      | enum h1 h2 h => rcases h with ⟨x, h⟩ | h; exacts [absurd h (hwe.bad _ _), absurd h (hwe.cancel _)]

theorem eachLoop_serves {P : Node → Prop} (hP : Complete P) (hn : Spec.Serves net 0 P) {step step'} (hstep : ∀ c st, In P c → OutIn P st → step c st = step' c st ∧ In P (step' c st).2.1 ∧ OutIn P (step' c st).2.2) :
    ∀ (is : List Nat) (s : Shard) (st : EachSt), In P s → OutIn P st → eachLoop net step is s st = eachLoop allNet step' is s st
  | [], s, st, hs, ho => rfl
  | i :: is, s, st, hs, ho => by
    unfold eachLoop
    rw [(get_serves (fun u _ => hn u (Nat.zero_le _)) hs).1]
    split
    · rfl
    · next c s1 t1 hg =>
      obtain ⟨hc, h1⟩ := get_in hP hg hs
      have := hstep c { st with t := t1 } hc ho
      rw [this.1]
      split
      · rfl
      · next h => rw [h] at this; exact eachLoop_serves hP hn hstep is _ _ (h1.setChild this.2.1 i) this.2.2

theorem forEachF_serves {P : Node → Prop} (hP : Complete P) (hn : Spec.Serves net 0 P) (cb : Nat → Bool) : ∀ (f : Nat) (s : Shard) (st : EachSt), In P s → OutIn P st →
    forEachF net cb f s st = forEachF allNet cb f s st
  | 0, s, st, hs, ho => rfl
  | f + 1, s, st, hs, ho => by
    unfold forEachF
    refine eachLoop_serves hP hn ?_ _ _ _ hs ho
    intro c st hc ho
    dsimp only
    split
    · next hv =>
      have : P (Link.rename (c.val.getD (.mk [] 0 default)) c.key).target := by
        rw [rename_target]
        unfold Shard.isValueNode at hv
        cases h : c.val with
        | none => simp [h] at hv
        | some v => exact hc.val h
      refine ⟨rfl, hc.withVal this, ?_⟩
      intro l hl
      simp only [List.mem_append, List.mem_singleton] at hl
      rcases hl with hl | rfl
      · exact ho l hl
      · exact this
    · exact ⟨forEachF_serves hP hn cb f c st hc ho, forEachF_in hP allNet cb f c st hc ho⟩

/-- Going through the links of a directory fetches only nodes below it. -/
theorem linksAndError_serves {P : Node → Prop} (hP : Complete P) {env : Env} {c : Dir.Cfg} (hd : DIn P c.dir) (hn : ∀ u x, P x → env.net u x = true) (env' : Env) (hn' : env'.net = allNet) :
    linksAndError env c = linksAndError env' c ∧ ∀ l ∈ (linksAndError env' c).1, P l.target := by
  simp only [linksAndError, forEachLink]
  cases hc : c.dir with
  | basic b =>
    rw [hc] at hd
    refine ⟨rfl, ?_⟩
    dsimp only
    rw [Basic.forEachLink]
    have h0 : Basic.forEachLink.go (fun _ => false) b.links 0 = (b.links, none) := by
      rcases each_go (fun _ => false) b.links 0 with h | ⟨_, _, _, _, _, _, h⟩
      · exact h.1
      · cases h
    rw [h0]
    exact hd
  | hamt h =>
    rw [hc] at hd
    have hs : In P h.shard := hd
    dsimp only
    rw [Shard.forEachLink, Shard.forEachLink, forEachF_serves hP (fun u _ => hn u) _ _ _ _ hs (by intro l hl; simp at hl), hn']
    refine ⟨rfl, ?_⟩
    have := (forEachF_in hP allNet (fun _ => false) h.shard.depth h.shard { out := [], t := c.t } hs (by intro l hl; simp at hl)).2
    exact this

/-- What going through the links of a published directory gives, and that the blocks of the tree are enough for it. -/
theorem export_links {ts : List (Bytes × Tree)} (h : Stands H (.dir ts) nd) {d : Dir} (hd : newDirectoryFromNode nd = .ok d) {env : Env} {c : Dir.Cfg}
    (hHe : env.H = H) (hc : c.dir = d) :
    ((linksAndError env c).2 = none →
      ((linksAndError env c).1.map Link.name).Nodup ∧ (∀ k, k ∈ (linksAndError env c).1.map Link.name ↔ (ts.lookup k).isSome) ∧
      ∀ l ∈ (linksAndError env c).1, ∀ tr', ts.lookup l.name = some tr' → Stands H tr' l.target) ∧
    ((∀ u x, Reach nd x → env.net u x = true) → (linksAndError env c).2 = none ∧ ∀ l ∈ (linksAndError env c).1, Reach nd l.target) := by
  refine ⟨(export_links' h hd hHe hc).1, fun hn => ?_⟩
  have hin := load_dir_in (P := Reach nd) hd (fun l hl => .step hl (.refl _))
  rw [← hc] at hin
  have heq := linksAndError_serves (reach_complete nd) hin hn (calmEnv H) rfl
  rw [heq.1]
  exact ⟨(export_links' (env := calmEnv H) h hd rfl hc).2 ⟨fun _ _ => rfl, fun _ => rfl, fun _ _ h => h, fun _ h => h⟩, heq.2⟩

theorem stands_export (h : Stands H tr nd) (hf : newUnixfsFile net t nd = .ok f) (he : Exports H net f tr') : SameTree tr tr' := by
  induction he generalizing tr nd t with
  | @writeTo dr dr' w r hw hr he =>
    have hk := export_kind h hf
    cases tr with
    | file c =>
      dsimp only at hk
      obtain ⟨h1, h2, h3⟩ := h.file_inv
      obtain ⟨ho, _⟩ := Reader.open_conv _ _ _ _ hk
      have hro := opens_file h1 ho
      obtain ⟨p, hp, _⟩ := C23_resume hk (by rw [hro]; exact h1) (by rw [hro]; exact h2) h3 [.writeTo w] [] (by intro w' hw'; simp at hw'; subst hw'; exact hw)
        (by intro w' hw'; simp at hw') (by intro i off wh r h; match i, h with | 0, h => simp at h | k + 1, h => simp at h)
      rw [hr] at hp
      cases hp with
      | cons h _ =>
        cases h with
        | whole h => cases h; exact .file _
        | writeTo => cases he
    | symlink _ => exact hk.elim
    | dir _ => exact hk.elim
  | @reads dr dr' ks rs r hks hr he =>
    have hk := export_kind h hf
    cases tr with
    | file c =>
      dsimp only at hk
      obtain ⟨h1, h2, h3⟩ := h.file_inv
      obtain ⟨ho, _⟩ := Reader.open_conv _ _ _ _ hk
      have hro := opens_file h1 ho
      obtain ⟨p, hp, _⟩ := C23_reads_resume hk (by rw [hro]; exact h2) h3 ks []
      rw [hr] at hp
      have h4 := cut_end ks rs r 0 p hp hks he
      obtain ⟨_, _, h5⟩ := C23_delivered c ks _ 0 p hp (by omega)
      rw [h5, List.drop_zero, List.take_of_length_le (by omega)]
      exact .file _
    | symlink _ => exact hk.elim
    | dir _ => exact hk.elim
  | symlink =>
    have hk := export_kind h hf
    cases tr with
    | file c => exact hk.elim
    | symlink _ => cases hk; exact .symlink _
    | dir _ => exact hk.elim
  | @dir d size env c n g es hHe hne hc hs hl hnames hsub ih =>
    have hk := export_kind h hf
    cases tr with
    | file c => exact hk.elim
    | symlink _ => exact hk.elim
    | dir ts =>
      dsimp only at hk
      obtain ⟨hcomp, hfin⟩ := C53_complete hs hl
      obtain ⟨hnd, hiff, hforms⟩ := (export_links h hk hHe hc).1 hfin
      have hn : es.map Prod.fst = (linksAndError env c).1.map Link.name := by
        rw [hnames]
        clear hs hl hnames hsub ih hnd hiff hforms
        generalize (linksAndError env c).1 = L at hcomp
        generalize g.delivered = D at hcomp
        induction hcomp with
        | nil => rfl
        | cons h _ ih => rw [List.map_cons, List.map_cons, ih, h.1]
      refine .dir (fun k => ?_) (fun k a a' ha ha' => ?_)
      · have h1 := hiff k
        rw [← hn] at h1
        have h2 : k ∈ es.map Prod.fst ↔ (es.lookup k).isSome := by
          clear * -
          induction es with
          | nil => simp
          | cons e es ih =>
            obtain ⟨n, x⟩ := e
            rw [List.lookup_cons]
            by_cases hk : k = n
            · subst hk; simp
            · rw [beq_eq_false_iff_ne.mpr hk]; simp [hk, ih]
        rw [h1] at h2
        cases h3 : ts.lookup k <;> cases h4 : es.lookup k <;> simp [h3, h4] at h2 ⊢
      · obtain ⟨i, hi⟩ := lookup_getElem es k a' ha'
        have hlen := hcomp.length_eq
        have hlen' : es.length = (linksAndError env c).1.length := by simpa using congrArg List.length hn
        have hil : i < es.length := (List.getElem?_eq_some_iff.mp hi).1
        obtain ⟨x, hx⟩ : ∃ x, g.delivered[i]? = some x := ⟨_, List.getElem?_eq_getElem (by omega)⟩
        obtain ⟨l, hl'⟩ : ∃ l, (linksAndError env c).1[i]? = some l := ⟨_, List.getElem?_eq_getElem (by omega)⟩
        have ho : Opened net l x := by
          have := (List.forall₂_iff_get.mp hcomp).2 i (by omega) (by omega)
          simp only [List.get_eq_getElem] at this
          rw [(List.getElem?_eq_some_iff.mp hx).2, (List.getElem?_eq_some_iff.mp hl').2] at this
          exact this
        have hname : l.name = k := by
          have := congrArg (·[i]?) hn
          simp only [List.getElem?_map, hi, hl', Option.map_some, Option.some.injEq] at this
          exact this.symm
        obtain ⟨_, u, hu⟩ := ho
        exact ih i _ x hi hx (hforms l (List.mem_of_getElem? hl') a (by rw [hname]; exact ha)) hu

theorem own_log {g g' : It} (h : It.Own net g g') (hc : g.cons ≠ .idle) :
    g'.cancelled = g.cancelled ∧ ((g'.cons ≠ .idle ∧ g'.log = g.log) ∨ (g'.cons = .idle ∧ g'.log.length = g.log.length + 1)) := by
  cases h with
  | finish h =>
    rw [It.finish]
    split
    · split
      · exact ⟨rfl, .inr ⟨rfl, rfl⟩⟩
      · exact ⟨rfl, .inr ⟨rfl, rfl⟩⟩
    · exact ⟨rfl, .inr ⟨rfl, rfl⟩⟩
  | bothNil => exact ⟨rfl, .inr ⟨rfl, rfl⟩⟩
  | recvErr => exact ⟨rfl, .inr ⟨rfl, rfl⟩⟩
  | recv => exact ⟨rfl, .inl ⟨by simp, rfl⟩⟩
  | _ => exact ⟨rfl, .inl ⟨hc, rfl⟩⟩

/-- A pending `Next` can be run to its end. -/
theorem next_run {ls : List Link} {fin : Option Err} : ∀ (m n : Nat) (g : It), g.measure ≤ m → It.Steps net n (It.start ls fin) g → g.cons ≠ .idle → g.cancelled = false →
    ∃ n' g', It.Steps net n' (It.start ls fin) g' ∧ g'.cons = .idle ∧ g'.cancelled = false ∧ g'.log.length = g.log.length + 1 := by
  intro m
  induction m with
  | zero =>
    intro n g hm h hc _
    obtain ⟨g', hg⟩ := (C53_next_returns h).2 hc
    have := own_measure hg
    omega
  | succ m ih =>
    intro n g hm h hc hx
    obtain ⟨g', hg⟩ := (C53_next_returns h).2 hc
    have h1 := own_measure hg
    obtain ⟨h2, ⟨h3, h4⟩ | ⟨h3, h4⟩⟩ := own_log hg hc
    · obtain ⟨n', g'', a, b, c, d⟩ := ih (n + 1) g' (by omega) (.own h hg) h3 (by rw [h2]; exact hx)
      exact ⟨n', g'', a, b, c, by rw [d, h4]⟩
    · exact ⟨_, g', .own h hg, h3, by rw [h2]; exact hx, h4⟩

/-- `Next` can be called any number of times. -/
theorem calls_run (ls : List Link) (fin : Option Err) : ∀ N : Nat, ∃ n g, It.Steps net n (It.start ls fin) g ∧ g.cons = .idle ∧ g.cancelled = false ∧ g.log.length = N
  | 0 => ⟨_, _, .zero _, rfl, rfl, rfl⟩
  | N + 1 => by
    obtain ⟨n, g, h, hc, hx, hl⟩ := calls_run ls fin N
    cases he : g.err with
    | some e => exact ⟨_, _, .client h (.callErr hc he), hc, hx, by simp [hl]⟩
    | none =>
      obtain ⟨n', g', a, b, c, d⟩ := next_run _ _ _ (Nat.le_refl _) (It.Steps.client h (.call hc he)) (by simp) hx
      exact ⟨n', g', a, b, c, by rw [d]; simp [hl]⟩

theorem choose_entries {P : FileNode → Tree → Prop} : ∀ (L : List (Bytes × FileNode)), (∀ x ∈ L, ∃ e, P x.2 e) →
    ∃ es : List (Bytes × Tree), es.map Prod.fst = L.map Prod.fst ∧ ∀ (i : Nat) e x, es[i]? = some e → L[i]? = some x → P x.2 e.2
  | [], _ => ⟨[], rfl, by simp⟩
  | x :: L, h => by
    obtain ⟨e, he⟩ := h x (by simp)
    obtain ⟨es, h1, h2⟩ := choose_entries L (fun y hy => h y (by simp [hy]))
    refine ⟨(x.1, e) :: es, by simp [h1], fun i => ?_⟩
    cases i with
    | zero => intro a b ha hb; simp at ha hb; subst ha; subst hb; exact he
    | succ i => intro a b ha hb; simp at ha hb; exact h2 i a b ha hb

theorem stands_possible (hnet : ∀ u x, Reach nd x → net u x = true) (h : Stands H tr nd) :
    ∃ f tr', newUnixfsFile net t nd = .ok f ∧ Exports H net f tr' ∧ SameTree tr tr' := by
  have opens : ∀ {tr nd} (t : Nat), Stands H tr nd → ∃ f, newUnixfsFile net t nd = .ok f := by
    intro tr nd t h
    cases h with
    | file h1 h2 h3 =>
      obtain ⟨dr, o, _⟩ := C52_file_content (net := allNet) (t := t) (fun _ _ _ => rfl) (opens_self h1) h1 h2 h3 [] (by intro w hw; simp at hw)
      exact ⟨_, (C52_file dr).mpr (by rw [newDagReader_file h1 net allNet]; exact (C52_file dr).mp o)⟩
    | symlink h => exact ⟨_, (C52_symlink _).mpr h⟩
    | dir h _ _ _ => exact ⟨_, (C52_dir _ _).mpr ⟨h, rfl⟩⟩
  have go : ∀ (m : Nat) (tr : Tree) (nd : Node) (t : Nat) (f : FileNode), sizeOf tr ≤ m → Stands H tr nd → (∀ u x, Reach nd x → net u x = true) →
      newUnixfsFile net t nd = .ok f → ∃ tr', Exports H net f tr' := by
    intro m
    induction m with
    | zero => intro tr _ _ _ hm; cases tr <;> simp at hm
    | succ m ih =>
      intro tr nd t f hm h hnet hf
      have hk := export_kind h hf
      cases tr with
      | file c =>
        cases f with
        | file dr =>
          obtain ⟨h1, h2, h3⟩ := h.file_inv
          obtain ⟨dr', o, _, p, o'⟩ := read_back (t := t) h1 h2 h3 (fun u _ => hnet u) [.writeTo (fun _ => none)] (by intro w hw; simp at hw; subst hw; exact fun _ => rfl)
          dsimp only at hk
          rw [hk] at o; cases o
          generalize hr : dr.run net [.writeTo (fun _ => none)] = R at o'
          obtain ⟨rs, dr'⟩ := R
          cases o' with
          | cons h1 h2 =>
            cases h2
            exact ⟨_, .writeTo (w := fun _ => none) (fun _ => rfl) hr (by cases h1; rfl)⟩
        | symlink _ => exact hk.elim
        | dir _ _ => exact hk.elim
      | symlink _ =>
        cases f with
        | file _ => exact hk.elim
        | symlink _ => exact ⟨_, .symlink⟩
        | dir _ _ => exact hk.elim
      | dir ts =>
        obtain ⟨d, sz, rfl, hd⟩ : ∃ d sz, f = .dir d sz ∧ newDirectoryFromNode nd = .ok d := by
          cases f with
          | file _ => exact hk.elim
          | symlink _ => exact hk.elim
          | dir d sz => exact ⟨d, sz, rfl, hk⟩
        let env : Env := { calmEnv H with net := net }
        have hL := export_links (env := env) (c := start d 0) h hd rfl rfl
        obtain ⟨hfin, hbelow⟩ := hL.2 hnet
        obtain ⟨_, hiff, hforms⟩ := hL.1 hfin
        have hform : ∀ l ∈ (linksAndError env (start d 0)).1, ∃ tr', ts.lookup l.name = some tr' ∧ Stands H tr' l.target := by
          intro l hl
          obtain ⟨tr', ht⟩ := Option.isSome_iff_exists.mp ((hiff l.name).mp (List.mem_map.mpr ⟨l, hl, rfl⟩))
          exact ⟨tr', ht, hforms l hl tr' ht⟩
        obtain ⟨n, g, hs, _, hx, hlen⟩ := calls_run (net := net) (linksAndError env (start d 0)).1 none ((linksAndError env (start d 0)).1.length + 1)
        obtain ⟨e, he⟩ := C53_ends hs (by omega)
        obtain ⟨rfl, hcomp⟩ := C53_all hs (fun u l hl => hnet u _ (hbelow l hl)) (fun u l hl => by obtain ⟨tr', _, h⟩ := hform l hl; exact opens u h) hx he
        obtain ⟨es, h1, h2⟩ := choose_entries (P := Exports H net) g.delivered (by
          intro x hx'
          obtain ⟨i, hi, hxi⟩ := List.mem_iff_getElem.mp hx'
          have hlen' := hcomp.length_eq
          have ho := (List.forall₂_iff_get.mp hcomp).2 i (by omega) hi
          simp only [List.get_eq_getElem] at ho
          rw [hxi] at ho
          obtain ⟨_, u, hu⟩ := ho
          obtain ⟨tr', ht, hf'⟩ := hform ((linksAndError env (start d 0)).1[i]'(by omega)) (List.getElem_mem _)
          have := lookup_sizeOf ht
          simp only [Tree.dir.sizeOf_spec] at hm
          exact ih tr' _ u _ (by omega) hf' (fun v y hy => hnet v y ((hbelow _ (List.getElem_mem _)).trans hy)) hu)
        exact ⟨_, .dir (env := env) (c := start d 0) rfl rfl rfl (by rw [hfin]; exact hs) he h1 h2⟩
  obtain ⟨f, hf⟩ := opens t h
  obtain ⟨tr', he⟩ := go _ tr nd t f (Nat.le_refl _) h hnet hf
  exact ⟨f, tr', hf, he, stands_export h hf he⟩

/-! ### C119: trees in the published format -/

/-- C119: a program that copies a published tree out, and is told of no error, has got the tree: whatever fetches failed, in whatever way
the files were read and however the steps of the producers of directory entries fell. -/
theorem C119_export (hH : ∀ k, (H k).length = 8) (h : TreeForm H tr nd) (hf : newUnixfsFile net t nd = .ok f) (he : Exports H net f tr') : SameTree tr tr' :=
  stands_export (stands_form hH h) hf he

/-- C119: if the blocks of a published tree can be fetched, it can be copied out: it opens, and there is a run of the program without an error. No
other blocks are needed. -/
theorem C119_possible (hH : ∀ k, (H k).length = 8) (hnet : ∀ u x, Reach nd x → net u x = true) (h : TreeForm H tr nd) :
    ∃ f tr', newUnixfsFile net t nd = .ok f ∧ Exports H net f tr' ∧ SameTree tr tr' :=
  stands_possible hnet (stands_form hH h)

open Classical in
/-- A directory with a directory in it, in which there are a file of several blocks and a symbolic link; the DAG service has just its blocks. -/
example : ∃ f tr', newUnixfsFile (fun _ x => decide (Reach exOuter x)) 0 exOuter = .ok f ∧ Exports H0 (fun _ x => decide (Reach exOuter x)) f tr' ∧ SameTree exPubTree tr' :=
  C119_possible H0_length (fun _ _ h => decide_eq_true h) exPubTree_form

/-- A file that is read with `Read`: the second fetch fails, the program tries again. -/
example : ∃ dr c, newUnixfsFile (fun u _ => u != 1) 0 exTri = .ok (.file dr) ∧ Exports H0 (fun u _ => u != 1) (.file dr) (.file c) ∧ SameTree (.file [1, 2, 3, 4, 5, 6]) (.file c) := by
  have h : (match newUnixfsFile (fun u _ => u != 1) 0 exTri with
    | .ok (.file dr) => decide ((dr.run (fun u _ => u != 1) ([4, 4, 4].map .read)).1 =
        [{ bytes := [1, 2], n := 2, err := some .notFound }, { bytes := [3, 4, 5, 6], n := 4, err := none }, { bytes := [], n := 0, err := some .eof }])
    | _ => false) = true := by decide +kernel
  split at h
  · rename_i dr hdr
    have h := of_decide_eq_true h
    have he : Exports H0 (fun u _ => u != 1) (.file dr) (.file [1, 2, 3, 4, 5, 6]) :=
      .reads (ks := [4, 4, 4]) (rs := [{ bytes := [1, 2], n := 2, err := some .notFound }, { bytes := [3, 4, 5, 6], n := 4, err := none }])
        (r := { bytes := [], n := 0, err := some .eof }) (by simp) (Prod.ext h rfl) rfl
    exact ⟨dr, _, hdr, he, C119_export H0_length exFile_form hdr he⟩
  · cases h

/-! ### C120: trees kept in a store and edited in many sessions -/

/-- C120: a program that copies out a tree whose files and directories were made and changed with this library, in any number of sessions, and is told
of no error, has got the tree that the same calls would have made of plain byte arrays and maps. -/
theorem C120_export {S : List Node} (h : KeptTree H S tr nd) (hf : newUnixfsFile net t nd = .ok f) (he : Exports H net f tr') : SameTree tr tr' :=
  stands_export (stands_kept h) hf he

/-- C120: it can do so from the store alone. -/
theorem C120_possible {S : List Node} (h : KeptTree H S tr nd) (hnet : ∀ u, ∀ x ∈ S, net u x = true) :
    ∃ f tr', newUnixfsFile net t nd = .ok f ∧ Exports H net f tr' ∧ SameTree tr tr' :=
  stands_possible (fun u x hx => hnet u x (C109_blocks h x hx)) (stands_kept h)

open Classical in
/-- A file that was edited in two sessions, in a directory in a directory; the DAG service has just the store. -/
example : ∃ S nd f tr', KeptTree H0 S (.dir [([97], .dir [([98], .file [1, 9, 3])])]) nd ∧ newUnixfsFile (fun _ x => decide (x ∈ S)) 0 nd = .ok f ∧
    Exports H0 (fun _ x => decide (x ∈ S)) f tr' ∧ SameTree (.dir [([97], .dir [([98], .file [1, 9, 3])])]) tr' := by
  obtain ⟨S, n, hk⟩ : ∃ S n, Kept S n [1, 9, 3] true := by
    have hsp : ∀ b, (byteEnv.split b).2 = none ∧ (byteEnv.split b).1.flatten = b ∧ AllFit (byteEnv.split b).1 := by
      intro b
      refine ⟨rfl, (byteEnv_ok b).1 rfl, fun c hc => ?_⟩
      simp only [byteEnv, List.mem_map] at hc
      obtain ⟨x, _, rfl⟩ := hc
      simp
    have hnf : NeverFails byteEnv := ⟨fun _ _ => rfl, fun _ => rfl, fun _ => rfl⟩
    obtain ⟨n1, _, h1⟩ := C108_next (ops := [.write [1, 2, 3, 4]]) Kept.empty hnf hsp (by simp [CarefulRun, Careful])
    obtain ⟨n2, _, h2⟩ := C108_next (ops := [.seek 1 0, .write [9], .truncate 3]) h1 hnf hsp
      (by simp only [CarefulRun, Careful]; exact ⟨⟨by decide, 1, rfl, by decide, .inl (by decide)⟩, ⟨by decide, by decide, .inl trivial⟩, ⟨by decide, .inl rfl, .inl (by decide)⟩, trivial⟩)
    exact ⟨_, _, h2⟩
  obtain ⟨S1, n1, h1⟩ := kept_single H0_length (.file hk) (k := [98]) (by simp)
  obtain ⟨S2, n2, h2⟩ := kept_single H0_length h1 (k := [97]) (by simp)
  obtain ⟨f, tr', h3, h4, h5⟩ := C120_possible (net := fun _ x => decide (x ∈ S2)) (t := 0) h2 (fun _ _ h => decide_eq_true h)
  exact ⟨S2, n2, f, tr', h2, h3, h4, C120_export h2 h3 h4⟩

end Unixfs.Props
