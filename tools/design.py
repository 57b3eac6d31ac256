import re,json,os,glob,collections
s=open('/verif/DESIGN.md').read()
i=s.index('## Plan per property')
head=s[:i]; tab=s[i:]
rows=re.findall(r'^\| (C\d+) \| (.*?) \| (.*?) \| (.*?) \| (.*?) \|$',tab,re.M)
how={r[0]:r[4] for r in rows}; title={r[0]:r[1] for r in rows}
for l in open('/verif/properties.jsonl'):
    d=json.loads(l); title[d['id']]=d['title']
model={}
def m(ids,f):
    for x in ids.split(): model[x]=f
m('C01 C02 C03 C04','Timestamp'); m('C65','Timestamp, TimeAcc')
m('C05 C06 C07 C08 C09 C10 C11 C12 C13 C14 C15 C16','Buffer, Timestamp')
m('C17 C18 C20 C45 C51','KalmanMath, Mat')
m('C19 C21 C22 C23 C24 C25 C26 C27 C57','Isolated, SMap, KalmanMath')
m('C28 C29','Corr'); m('C30 C31 C32 C33','StandaloneKF, Instances')
m('C34 C35 C36 C37 C38 C39 C40 C68','Handler, Instances')
m('C41','Lock'); m('C42','Registry'); m('C43','Names'); m('C44 C62','Schmidt')
m('C46 C47 C48','MultiAgent'); m('C49 C58 C59','MathUtils'); m('C60','MatUtils'); m('C50','MatUtils, VertCat')
m('C52 C61','Csv'); m('C53','MeasData'); m('C54 C55 C63','StdFilters')
m('C56 C64','Iterated'); m('C66 C67','Decoupled, Isolated'); m('C69 C70 C71 C72 C73','Collab, Isolated, MultiAgent')
m('C73','Collab, Iterated')
m('C74 C75','DciHandler, Collab')
m('C76 C77 C78','CollabRedo, Handler, MultiAgent')
m('C79 C80','Access, Isolated')
m('C81','Heap, Isolated')
m('C90 C92','CyclicThread'); m('C91','Rate'); m('C93','Normal, NoiseGen'); m('C94','NoiseGen')
m('C95','Quat'); m('C96 C97','PathStr'); m('C98 C99','FileSys, PathStr')
m('C108','ProgressBar'); m('C109','Walk, Buffer'); m('C110','Stamped, Timestamp'); m('C111','Restart, Handler, Isolated, UserFilter'); m('C112','Correlated, Isolated, UserFilter, Handler'); m('C113','Convert'); m('C114','SampleStats, Convert'); m('C115','StandaloneMath'); m('C116','Isolated, KalmanMath'); m('C117','StandaloneMath, KalmanMath'); m('C118','StandaloneMath, KalmanMath'); m('C119','StandaloneMath, KalmanMath, Isolated'); m('C120','StandaloneMath, KalmanMath'); m('C121','Model/Isolated (Inst) against Model/StandaloneMath (SKF)'); m('C122','Model/Log.lean'); m('C123','Model/Stats.lean'); m('C124','`Model/Listing` (`isDirectory`, `filesLoop`, `getFiles`, `dirsLoop`, `getDirs`), entries and modes as the system answers; specification `Spec/Listing` (POSIX file kinds from the mode word)'); m('C125','`Model/Listing` (`getline`, `readLines`, `getLines`, `getAbsPaths`, `extract`, `tokens`, `firstTokenAndReset`); specification `Spec/Listing` (`IsLines`, `IsWords`)'); m('C126','`Model/Listing` (`shellWords`, `rmWord`, `rmWords`, `removeDirectory`) over the tree of `Model/FileSys`'); m('C127','`Model/StandaloneMath`, `Model/KalmanMath` as for C100 and C115; specification `Spec/NearOptimal` (the ideal filter, the size of eps)'); m('C128','`Model/PreCheck` (the second `check_NIS`), `Model/KalmanMath`; specification `Spec/PreCheck`'); m('C129','`Model/StandaloneMath`, `Model/KalmanMath` as for C100; specification `Spec/Forget` (differences in standard deviations, factor between covariances, plausible residuals), cycles of `Spec/Bounded`'); m('C130','`Model/Isolated`, `Model/KalmanMath`, `Model/MatUtils` (nearestCov); specification `Spec/Rename` (renamed calls, same estimates)'); m('C131','`Model/Isolated`, `Model/KalmanMath`; specification `Spec/Linear` (weighted means, calls differing in values, estimates)'); m('C132','`Model/Isolated`, `Model/KalmanMath`; specification `Spec/Groups` (interleaving, union, agreement, no correlation)'); m('C133','`Model/Isolated`, `Model/KalmanMath`, `Model/Buffer`; specification `Spec/Retime` (the same call at another time, estimates equal but for times)'); m('C134','`Model/Ldlt`, `Model/FixPsd`; specification `Spec/Psd` (symmetric, nearly symmetric, lower triangle; PosSemidef and PosDef of Mathlib)'); m('C135','`Model/Isolated`, `Spec/Central`; specification `Spec/Commute` (whom a call concerns, the same calls in an order no instance can tell)'); m('C136','`Model/Isolated`, `Spec/Central`; specification `Spec/Commute` (successive propagations with the transition and noise of the whole interval)'); m('C137','`Model/Isolated`, `Spec/Central`; specification `Spec/Saved` (the saved covariances, the fresh instances)'); m('C138','`Model/Members`, `Model/Isolated`; specification `Spec/Members` (the centralised filter with changing membership)'); m('C139','`Model/StandaloneMath`, `Model/Isolated`, `Model/KalmanMath`; specification `Spec/Information` (the sums)'); m('C140','`Model/StandaloneMath`, `Model/KalmanMath`, `Model/StandaloneKF`, `Model/Isolated`; specifications `Spec/Honest`, `Spec/Innovation` (residual, expected covariance)'); m('C141','`Model/StandaloneMath`, `Model/KalmanMath`, `Model/StandaloneKF`; specifications `Spec/Region`, `Spec/Innovation`'); m('C142','`Model/StandaloneMath`, `Model/KalmanMath`, `Model/StandaloneKF`; specification `Spec/Compromise` (misfit, cost, innovations)'); m('C107','SimpleCmd, StdFilters, Timestamp'); m('C106','Isolated, StdFilters'); m('C105','Concurrent, Lock, Handler'); m('C104','Isolated, Iterated, Decoupled, Schmidt, Collab, DciHandler, StdFilters'); m('C100 C102','StandaloneMath, KalmanMath'); m('C101','StandaloneKF, StandaloneMath'); m('C103','StandaloneKF, StandaloneMath')
m('C84 C86','UserFilter, Handler, Isolated'); m('C87','UserFilter'); m('C89','DelayDemo, UserFilter, Handler'); m('C88','Handler'); m('C85','UserFilter, Handler, Isolated'); m('C82','Iterated, Isolated'); m('C83','Isolated, Iterated, Schmidt, Decoupled, Collab')
how.update({
'C108':'state after k calls in closed form, induction over the calls; error bounds of the four rounded operations of the time left.',
'C109':'loops reduced to folds by induction; the list in the order of time is unique, C05 and C12 give that the buffer holds it.',
'C110':'reduction to C02; rounding bounds of to_sec and from_sec; an explicit double for every rounding.',
'C111':'an invariant of the instances (which ones, how long their histories) kept by every callback and hence by every step of the handler; the counterexamples are evaluated by the kernel.',
'C112':'the pairs with factors after every call are those before and a symmetric set of new ones; kept by every step of the handler.',
'C113':'loop invariants over the element-wise assignments.',
'C114':'the loop yields the matrix of columns (C113); finite sums; integrals of products of independent centred variables vanish.',
'C115':'Spec/Honest describes system and noises on a probability space. The estimate is that of the textbook filter (C100) for every outcome; then by induction over the run: the error is a linear function of old error and noise, later noises stay uncorrelated with it, the covariance recursion is the second moment in Joseph form, and the error stays orthogonal to the span of the data.',
'C116':'Spec/HonestTeam describes the systems and noises on a probability space. Induction over the run with the centralised filter of C24 for every outcome: covariances do not depend on chance, errors are linear functions of old errors of the same group and of the noise, later noises and other groups stay uncorrelated, and the covariance recursion bounds the second moments.',
'C117':'Spec/Certainty compares estimates and scripts. The optimal gain minimises the covariance over all gains, so the update is monotone in prior and noise; induction over the two scripts on the textbook run of C100.',
'C118':"Spec/Bounded: cycles and stable observers. The covariance after an update is at most that of correcting with the observer's gain; induction over the cycles gives a geometric bound.",
'C119':'Spec/Simultaneous: observations, stacking. Two updates in a row satisfy the normal equations of the stacked measurement, which have one solution and do not depend on the order; transported to the calls by C100 and to the instances by the refinement of C21.',
'C120':'Spec/Units: converted calls and estimates. Gain, update and innovation statistic transform with T and U; a simulation step for every call, the gate included; induction over the calls.',
'C121':'forward simulation: the belief history of the instance is a subset of that of the standalone filter; frame lemmas for the calls of others',
'C122':"threads with programs over the spdlog registry, one step per call into spdlog; one thread: induction over the program; threads: invariant that the registered logger stays and that written plus owed lines are the program's",
'C123':'algebra of sums; induction over the scan of max_element; floor and ceiling',
'C124':'both loops are shown to be filters by induction; the bit test is compared with the kinds for all mode words by bit arithmetic',
'C125':'strong induction on the length of the text, both directions of each characterisation',
'C126':'the word splitting of plain names is computed symbolically; removal is a function on the tree compared place by place',
'C127':'both directions of the update inequality from the optimality of the gain for any noise matrix; induction over the calls; then C115 for the ideal filter',
'C128':'the inverse is antitone on positive definite matrices (completing the square), applied to the stabilised and the plain innovation covariance',
'C129':'d dᵀ <= c P is kept by the update (Joseph form) and divided by 1+alpha in the prediction; the factor between covariances likewise, by the optimality of the gain; the difference of the gains is bounded by the loss of optimality of the other gain; induction over the cycles',
'C130':'two simulations by the centralised filter (C24) related by the renaming; the stacked matrices differ by a permutation of the rows, under which innovation, gate, gain, posterior and repair are equivariant; induction over the calls',
'C131':'three simulations by the centralised filter (C24); stacked matrices are determined by their blocks, the correction is a fixed gain times the residual; induction over the calls',
'C132':"three simulations by the centralised filter (C24) with the invariant that the groups' cross-covariances are zero; induction over the interleaving",
'C133':'two simulations by the centralised filter (C24), the times of the second pulled back; induction over the calls',
'C134':'invariant of the left-looking loop: a permutation of the matrix is L D L^T left of the current column and untouched right of it; congruence by a unit triangular matrix keeps (semi)definiteness',
'C135':'a call changes the correlations with the instances it does not concern by a multiplication from one side that depends on those it concerns only, so two calls on different instances commute; induction over the history, with uniqueness of the centralised state of a handler',
'C136':'induction over the steps on the centralised filter, then the simulation between two handlers with the same estimates',
'C137':'induction over the writes: each makes one pair equal to that of the old handler and leaves the others; then the simulation between two handlers with the same estimates',
'C138':'simulation with the centralised filter, extended by a block that is zero outside its diagonal at a join, and restricted at a leave; `_fails` for an ID that is used again',
'C139':'induction over the list: the accumulated correction factor is the inverse of 1 + P J for the sum J, the mean is that factor applied to x + P h; both are determined by the sums',
'C140':'second moments of residuals from C115; trace of a product of semidefinite matrices; Markov inequality with c20_gate_partial for the test; orthogonality to the span of the data by induction over the run; for isolated filters the invariant of C116, kept with one more noise to come',
'C141':'c20_gate_partial for the call; the quadratic form of the inverse as a supremum over directions (discriminant argument); rows of the quantile table compared by kernel evaluation',
'C142':'completing the square for one measurement (matrix identity), information form of the new covariance from C139, induction over the measurements; the test by C141',
'C107':'loop invariant: the calls made so far are a prefix of the specified script, each accepted call simulated by the centralised filter (C55), all stamps equal the clock; induction over instances and steps. Clock by rounding-free arithmetic; explicit refutations. Two bodies: the invariant of C106 for pairs, the process noise restoring the margin in each step.',
'C106':'the centralised filter of C21 as an invariant carrier: each accepted call is a congruence plus something positive, or replaces the diagonal block of one group that is uncorrelated with the rest; induction over the calls. Filters without buffers: the same with a margin of 1e-16, which a private update may use up and a propagation or joint update restores. One participant against an outsider: P A^-1 X with P <= A + d. Refutations with three scalar instances, evaluated exactly.',
'C105':'small-step semantics of threads over shared members and two mutexes; invariant: the members are those of the calls finished so far, or the thread inside has the rest of its call to do; induction over the schedule. process_measurement is cut into its accesses and proved equal to Model/Handler alone. Explicit schedules for the refutations.',
'C104':'one lemma per function: covariances in, covariances out (propagation and private observation by the algebra of C18, joint observations because the posterior is symmetric and then repaired); induction over the calls.',
'C100':'unfolding each call to matrix algebra over Fin n, then induction over the calls.',
'C101':'the buffer invariant of C36 with causality of the user filter: the beliefs up to a time are those of the run over the measurements up to that time; induction over arrivals; kernel-evaluated refutations.',
'C102':'unfolding to the null read.',
'C103':'lower bound on the number of beliefs by induction; characterisation of the erase calls.',
'C95':'norms of quaternions, Taylor bounds of sine and cosine; explicit refutations.',
'C96':'a split relation with existence and uniqueness; the loop computes it (fuel as termination measure); an endless loop for the refutation.',
'C97':'last occurrence of a character characterised; case analysis.',
'C98':'invariant of the loop: the string built stands for a place in the tree; induction over the tokens.',
'C99':'composition of C98 with the open call.',
'C84':'relational version of C36 (a run denotes the chronological list of the accepted measurements) with `Rel` to the centralised filter as the meaning; removing the newest estimates restores the relation to an earlier prefix (Lemmas/Off); induction over arrivals.',
'C86':'the relation of C84 also holds for the cut of every history at an earlier time (the invariant keeps it for every chronological prefix); then `AgreesAt`.',
'C87':'entrywise matrix arithmetic over the reals; rounding bounds of Lemmas/FpErr.',
'C90':'interleavings as event lists; step invariants, a decreasing measure for termination, explicit schedules for the refutations.',
'C91':'rounding bounds for the period; induction over cycles.',
'C92':'simulation of the cycles by a fold; concrete refutation.',
'C93':'affine image of a standard Gaussian (characteristic function), spectral/Cholesky contract; concrete refutations.',
'C94':'induction over the call history with the parity of draws.',
'C89':'rounding bounds for the sample times, the calls of the program satisfy the premises of C86 (`Served`, within the horizon), estimates read off `AgreesAt`; concrete run for the refutation.',
'C88':'the redone measurements include the one handed in (invariant of C36); refutation by kernel evaluation.',
'C85':'C84 for runs that fit the horizon; concrete counterexample by kernel evaluation of the handler.',
'C82':'specification of the iterated filter on stacked matrices (Spec/GaussNewton); refinement of the loop by induction over the iterations left, then simulation over the calls; progress under fitting shapes.',
'C83':'each loop over participants equals the same loop on the handler with the predicted participants: induction over the list.',
'C79':'case analysis on the registry, lookups reduced to C30; induction over the list of IDs.',
'C81':'simulation of the value model by the pointer model under an ownership invariant, call by call, then induction over the calls; the aliased case computed.',
'C80':'the split loop characterised by filters, then C79 on the own part and the specification of the agent handler on the rest.',
'C20':'table lookup transcribed with UB outcome; refutations; `_partial` for gate semantics. The table: lower and upper bounds of the chi-square distribution function by a power series checked in kernel arithmetic; the law of the statistic from the multivariate Gaussian.',
'C76':'folds over sorted sets characterised by membership; potential argument over event lists for the number of requests.',
'C77':'case analysis with the membership characterisation of C76.',
'C78':'invariant of Lemmas/HandlerInv redone for the weaker order (Lemmas/Relaxed); under STRICT equality with the base class.',
'C56':'loop transcribed with UB outcomes; unfolding for one iteration; refutations for others.',
'C57':'invariant of reachable states (`Rel`) gives shapes of every stored block; each call is unfolded to `ok`.',
'C58':'trigonometry over the reals; refutation for the pitch.',
'C59':'entrywise ring identities; exponential series as a finite sum.',
'C60':'spectral theorem for the symmetric case; refutation for asymmetric arguments.',
'C61':'writer composed with reader, induction over rows and columns; refutations.',
'C62':'frame theorem for fixed nuisance beliefs; refutation otherwise.',
'C63':'matrix algebra for one input; refutation for every other number.',
'C64':'fixed point of the iteration: induction over iterations with block matrix algebra.',
'C50':'shape-carrying matrices with a throw/UB outcome.',
'C65':'error bounds over an arbitrary rounding with bounded relative error.',
'C66':'simulation: the full stacked state of all registered instances is the centralised filter.',
'C67':'case analysis of the statuses; simulation for the processed ones.',
'C68':'equality of whole states after reset; commuting of histories.',
'C69':'simulation between the net of agents and one handler holding the union (`Dist`), then `Rel` to the centralised filter; induction over the interleaving.',
'C70':'progress from the same invariant.',
'C71':'messages of a joint observation can be lost (`Link`); frame theorem and refutation.',
'C72':'answers read off the simulation; refutation.',
'C73':'as C69, with the measurement function as parameter, participants in any order, fixed participants removed.',
'C74':'simulation per agent: each agent has its own centralised filter; one side delivers beliefs and factors (Lemmas/Dci), the correction touches the caller only.',
'C75':'case analysis of the sizes of both sides; concrete counterexample with one instance each.',
})
rep={'IKFHandler.lean':'','CrossCov.lean':''}
props=collections.defaultdict(list)
for f in sorted(glob.glob('/verif/lean/Verif/Props/*.lean')):
    for c in set(re.findall(r'^theorem (c\d+)_',open(f).read(),re.M)):
        props[c.upper()].append(os.path.basename(f)[:-5])
out='## Plan per property\n\nFiles are under `lean/Verif/`: models in `Model/`, theorems named `cNN_…` in `Props/`.\n\n| id | property | Model/ | Props/ | how |\n|---|---|---|---|---|\n'
for l in open('/verif/properties.jsonl'):
    c=json.loads(l)['id']
    out+=f"| {c} | {title[c]} | {model.get(c,'')} | {', '.join(props[c])} | {how.get(c,'')} |\n"
open('/verif/DESIGN.md','w').write(head+out)
for l in open('/verif/properties.jsonl'):
    c=json.loads(l)['id']
    if c not in model or c not in how: print('missing',c)
