FALSE="The full statement is false of the code; the negation is proved with a concrete witness and the _partial theorem says what does hold. "
NOTES={
 'C03':('partial',FALSE+"XLA clamps the start offset, so an overflowing write overwrites earlier rows."),
 'C04':('partial',FALSE+"cursor and cursor_dim are not saved."),
 'C06':('partial',FALSE+"np.load refuses the pickled dictionary; and name/data are passed to the constructor in the wrong order."),
 'C18':('partial',FALSE+"the guarantee holds exactly when the thinning divides the number of steps."),
 'C34':('partial',FALSE+"the hottest temperature can exceed the configured maximum after adaptation."),
 'C51':('partial',FALSE+"history_window = 0 trains on everything, and chains with different numbers of finite rows are misaligned by reshape."),
 'C11':('partial',FALSE+"a second sample() reuses the first run's keys (the sampler's key is never advanced), and because strategy cursors and the state's target names are not reset, its training rows overwrite the first run's production samples."),
 'C36':('partial',FALSE+"the cold replica targets logpdf + logprior while the local and global steppers target logpdf alone: equal iff the prior is constant."),
 'C98':('partial',FALSE+"for a standard normal target, identity mass matrix and every n_leapfrog >= 1 there is a step size for which every HMC step is exactly half a turn: every step moves x to -x and is accepted whatever momentum is drawn, so each row is the start up to its sign and the law never converges (C98_half_turn, C98_rows_half_turn, C98_no_convergence). Proved: convergence from every start when K m_i step^2 n (n + 2) < 3 for a K-Lipschitz gradient (always for n_leapfrog = 0); exactness for all settings is C25, mixtures with other kernels are C97."),
 'C78':('partial',FALSE+"outside training the replica positions are thrown away, so the same stored replica is offered to the walker again and again: the walker's distribution drifts to the hot one from the second call on (C78_cold_chain_drifts, C78_not_kept); the first call is exact."),
 'C65':('partial',FALSE+"outside training the replica positions are computed and thrown away."),
 'C25':('partial',FALSE+"with a correlated condition_matrix the kinetic energy broadcasts p^2 over both indices of the metric, so the accept/reject energy is not that of the N(0, M^-1) momentum actually drawn; the diagonal case is proved."),
 'C106':('partial',FALSE+"get_initial_hamiltonian takes condition_matrix**-0.5 entry by entry, so for every diagonal matrix of dimension at least two it returns NaN (proved for all inputs), and for matrices with positive entries the kinetic energy is d times too large; it is proved right for a number as condition matrix and in dimension one."),
 'C43':('partial',FALSE+"inside each layer inverse applies the inverse of the affine part before the inverse of the spline part (the same order as forward), so it is the inverse only while ScalarAffine's scale and shift have their initial value 0; both are trainable. For newly constructed flows proved from hypotheses on the constructor's arguments only (C43_new_flow_inverse)."),
 'C44':('partial',FALSE+"proved in full for RealNVP (0/1 masks, default base); for the spline flow proved while the affine parts are untrained; a trained witness is proved to sample from a different density than exp(log_prob)."),
 'C45':('partial',FALSE+"the whitening Jacobian is missing, so the integral is the product of the data standard deviations; this is proved for both flows, also after training."),
 'C46':('partial',FALSE+"RealNVP.log_prob always uses N(0,I); proved to match iff the base is standard normal (one-dimensional Gaussian family); proved for the spline flow with every Gaussian base."),
 'C52':('partial',FALSE+"adamw's weight decay multiplies every frozen parameter by 1 - 1e-4 lr per step; consequences proved: trained RealNVP masks are not 0/1 and inverse no longer inverts forward; the trained default base no longer matches RealNVP.log_prob."),
 'C56':('partial',FALSE+"Solver.log_prob evaluates the base density at x1 instead of x0; the exact discrepancy is proved for every smooth field (Liouville's formula)."),
}
