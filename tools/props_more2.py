p('C88', 'characteristic_from_pdf behaves like a characteristic function',
  'For sorted abscissae and non-negative density values, characteristic_from_pdf(0) is the trapezoidal mass, its modulus never exceeds the mass, and characteristic_from_pdf(-z) is its complex conjugate.',
  'every grid, every density table, every z', 'Bounds over all z and all tables.', M1+'characteristic_from_pdf')
p('C89', 'inverse_fourier discards nothing on symmetric grids',
  'If the grid is symmetric about zero and the characteristic function values are conjugate-symmetric, the trapezoidal integral is real, so taking its real part loses nothing.',
  'every x, every symmetric grid of any length', 'All grids.', PD+'inverse_fourier')
