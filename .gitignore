lean/.lake/
*.olean
*.ilean
__pycache__/
